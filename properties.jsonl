{"id": "C01", "title": "Multi-byte plain/packed codecs round-trip", "statement": "For the 16, 24, 32, 48 and 64 bit codecs (rleN_sym, rleN_byte, rleN_sym_packed, rleN_byte_packed): if compress is given an input of 1..2^30 bytes and an output buffer of at least rle_compress_bounds(inSize) bytes it returns a non-zero size, and decompress of that stream returns inSize and reproduces the input byte for byte.", "quantifier": "every input content and length in 1..2^30, every content of the memory following the input, every CPU feature set at compression and at decompression time, every buffer alignment", "why_tests_cant": "The claim ranges over all byte strings (and every SIMD dispatch pair); tests sample a few files on one machine.", "anchors": ["src/rleX_extreme_cpu_encode.h:rleN_*_compress_{base,sse2,avx2}", "src/rleX_extreme_cpu_decode.h", "src/rleX_extreme_cpu.h", "src/rle24_extreme_cpu_encode.h", "src/rle24_extreme_cpu_decode.h", "src/rle48_extreme_cpu_encode.h", "src/rle48_extreme_cpu_decode.h", "src/rleX_extreme_common.h"]}
{"id": "C02", "title": "128 bit codecs round-trip", "statement": "rle128_sym, rle128_byte, rle128_sym_packed and rle128_byte_packed: decompressing what compress produced reproduces the input.", "quantifier": "every input of 1..2^30 bytes, every CPU feature set, every alignment", "why_tests_cant": "The claim ranges over all byte strings (and every SIMD dispatch pair); tests sample a few files on one machine.", "anchors": ["src/rle128_extreme_cpu.h", "src/rle128_extreme_cpu.c"]}
{"id": "C03", "title": "8 bit multi and single codecs round-trip", "statement": "rle8_multi, rle8_single, rle8_packed_multi, rle8_packed_single: whenever compress fits the caller's buffer, rle8_decompress / rle8_packed_decompress reproduces the input, whichever symbol the 'single' heuristic picks and whichever SIMD path either side uses.", "quantifier": "every input of 1..2^30 bytes, every chosen single symbol, every CPU feature set, every alignment", "why_tests_cant": "The claim ranges over all byte strings (and every SIMD dispatch pair); tests sample a few files on one machine.", "anchors": ["src/rle8_extreme_cpu.h", "src/rle8_extreme_cpu.c"]}
{"id": "C04", "title": "Symbol-LUT codecs round-trip", "statement": "rle8_{3,7}symlut and rle{16,24,32,48,64}_{3,7}symlut_{sym,byte}: whenever compress fits the caller's buffer, decompress reproduces the input.", "quantifier": "every input of 1..2^30 bytes, every CPU feature set, every alignment", "why_tests_cant": "The claim ranges over all byte strings (and every SIMD dispatch pair); tests sample a few files on one machine.", "anchors": ["src/rleX_Xsl.h", "src/rleX_Xsl_multibyte_encoder.h", "src/rleX_Xsl.c"]}
{"id": "C05", "title": "Short symbol-LUT codecs round-trip", "statement": "rle8_multi_short, rle8_single_short, rle8_{1,3,7}symlut_short, rle{16,24,32,48,64}_{sym,byte}_short and rle{..}_{1,3,7}symlut_{sym,byte}_short: whenever compress fits the caller's buffer, decompress reproduces the input.", "quantifier": "every input of 1..2^30 bytes, every chosen single symbol, every CPU feature set, every alignment", "why_tests_cant": "The claim ranges over all byte strings (and every SIMD dispatch pair); tests sample a few files on one machine.", "anchors": ["src/rleX_Xsl_short.h", "src/rleX_Xsl_short_multibyte_encoder.h", "src/rleX_Xsl_short.c"]}
{"id": "C06", "title": "Greedy short encoders produce ordinary streams", "statement": "Every *_byte_short_compress_greedy stream is decoded by the matching non-greedy *_byte_short_decompress to the original input.", "quantifier": "every input of 1..2^30 bytes, every LUT size in {1,3,7}, every symbol width in {2,3,4,6,8}", "why_tests_cant": "The claim ranges over all byte strings (and every SIMD dispatch pair); tests sample a few files on one machine.", "anchors": ["src/rleX_Xsl_short.h:compress_greedy"]}
{"id": "C07", "title": "Low-entropy codec round-trip", "statement": "rle8_low_entropy_compress and rle8_low_entropy_compress_only_max_frequency followed by rle8_low_entropy_decompress reproduce the input.", "quantifier": "every input, every frequency distribution of the 256 byte values", "why_tests_cant": "Failure needs an unusual frequency distribution (all 256 values flagged as run symbols), which sampled inputs miss.", "anchors": ["src/rle8_low_entropy_cpu.c"]}
{"id": "C08", "title": "Low-entropy-short codec round-trip", "statement": "rle8_low_entropy_short_compress / _only_max_frequency followed by rle8_low_entropy_short_decompress reproduce the input.", "quantifier": "every input, every frequency distribution of the 256 byte values", "why_tests_cant": "Same as for the long variant; in addition block and tail boundaries depend on the input length modulo the block size.", "anchors": ["src/rle8_low_entropy_short_cpu.c"]}
{"id": "C09", "title": "rle8m round-trip for every number of sub-sections", "statement": "rle8m_compress with k sub-sections followed by rle8m_decompress reproduces the input for every k >= 1 for which compression succeeds.", "quantifier": "every input, every number of sub-sections", "why_tests_cant": "Interaction of section boundaries with runs for all lengths and section counts.", "anchors": ["src/rle8_low_entropy_cpu.c:rle8m_compress", "src/rle8_low_entropy_cpu.c:rle8m_decompress"]}
{"id": "C10", "title": "OpenCL kernel result is schedule independent and correct", "statement": "The rle8m OpenCL kernels write the same output whatever order the work-groups run in, each work-group writes only its own sub-section, and the result is the original input.", "quantifier": "every valid rle8m stream, every permutation/interleaving of work-groups", "why_tests_cant": "Schedules cannot be enumerated by tests.", "anchors": ["src/rle8_ocl_kernel.h", "src/rle8_ocl.c"]}
{"id": "C11", "title": "mmtf128/mmtf256 transforms are invertible", "statement": "mmtf128_decode(mmtf128_encode(x)) = x and mmtf256_decode(mmtf256_encode(x)) = x for every x, whatever code path either side takes.", "quantifier": "every input, every alignment, every CPU feature set with SSE2", "why_tests_cant": "The claim ranges over all byte strings (and every SIMD dispatch pair); tests sample a few files on one machine.", "anchors": ["src/mmtf.c"]}
{"id": "C12", "title": "mmtf paths agree with each other and with 16/32 interleaved move-to-front coders", "statement": "The aligned, unaligned and SSE2 implementations of the mmtf encoder (decoder) all produce, lane by lane, exactly the output of a textbook move-to-front coder run on the bytes i mod 16 (i mod 32), and write exactly inSize bytes.", "quantifier": "every input, every lane", "why_tests_cant": "The claim ranges over all byte strings (and every SIMD dispatch pair); tests sample a few files on one machine.", "anchors": ["src/mmtf.c"]}
{"id": "C13", "title": "bitmmtf8/bitmmtf16 are invertible", "statement": "bitmmtf8_decode(bitmmtf8_encode(x)) = x and the same for bitmmtf16 (including odd lengths); both directions write exactly inSize bytes.", "quantifier": "every input", "why_tests_cant": "The claim ranges over all byte strings (and every SIMD dispatch pair); tests sample a few files on one machine.", "anchors": ["src/bit_mmtf.c"]}
{"id": "C14", "title": "rle8_mmtf128 round-trip", "statement": "rle8_mmtf128_decompress(rle8_mmtf128_compress(x)) = x for every input for which the output fits the buffer.", "quantifier": "every input of 1..2^30 bytes, every value of the uninitialised accumulator the encoder starts from", "why_tests_cant": "The encoder reads an uninitialised register; tests see one value of it.", "anchors": ["src/rle8_mmtf.c"]}
{"id": "C15", "title": "rle8_sh round-trip", "statement": "rle8_sh_decompress(rle8_sh_compress(x)) = x for every input for which the output buffer is large enough.", "quantifier": "every input of 1..2^30 bytes", "why_tests_cant": "The encoder is a state machine with many modes; only an invariant covers every history of mode switches.", "anchors": ["src/rle_sh.c"]}
{"id": "C16", "title": "Output of the multi-byte and 128 bit codecs fits rle_compress_bounds", "statement": "For the 16/24/32/48/64/128 bit plain and packed codecs the returned size never exceeds rle_compress_bounds(inSize); hence no write outside an output buffer of that size.", "quantifier": "every input of 1..2^30 bytes, every CPU feature set", "why_tests_cant": "Worst case over all inputs.", "anchors": ["src/rle8_extreme_cpu.c:rle_compress_bounds", "src/rleX_extreme_cpu_encode.h", "src/rle128_extreme_cpu.h"]}
{"id": "C17", "title": "Output of the 8 bit codecs fits rle_compress_bounds", "statement": "The size returned by rle8_multi/rle8_single/rle8_packed_multi/rle8_packed_single compress never exceeds rle_compress_bounds(inSize).", "quantifier": "every input of 1..2^30 bytes", "why_tests_cant": "Worst case over all inputs; the offending inputs are long and structured.", "anchors": ["src/rle8_extreme_cpu.c:rle_compress_bounds", "src/rle8_extreme_cpu.h"]}
{"id": "C18", "title": "Output of the symbol-LUT codecs fits rle_compress_bounds", "statement": "The size returned by the 3/7 symlut codecs never exceeds rle_compress_bounds(inSize).", "quantifier": "every input of 1..2^30 bytes", "why_tests_cant": "Worst case over all inputs; the offending inputs are long and structured.", "anchors": ["src/rleX_Xsl.h:process_symbol"]}
{"id": "C19", "title": "Output of the short codecs fits rle_compress_bounds", "statement": "The size returned by the short codecs (0/1/3/7 symlut, single) never exceeds rle_compress_bounds(inSize).", "quantifier": "every input of 1..2^30 bytes", "why_tests_cant": "Worst case over all inputs; the offending inputs are long and structured.", "anchors": ["src/rleX_Xsl_short.h:process_symbol"]}
{"id": "C20", "title": "Output of low-entropy, rle8m, rle8_mmtf128 and rle8_sh fits the advertised bounds", "statement": "The size returned by each of these compressors never exceeds its own *_compress_bounds / rle8_sh_bounds and never exceeds the buffer size that was accepted.", "quantifier": "every input, every number of sub-sections", "why_tests_cant": "Worst case over all inputs.", "anchors": ["src/rle8_low_entropy_cpu.c", "src/rle8_mmtf.c", "src/rle_sh.c"]}
{"id": "C21", "title": "Extreme decompression stays inside outSize + rle_decompress_additional_size()", "statement": "When decompressing a stream produced by the compressor into a buffer of uncompressed size plus rle_decompress_additional_size() (128) bytes, no byte outside that buffer is written, and no byte more than one vector (64 bytes) past the end of the stream is read.", "quantifier": "every stream an extreme codec can produce, every CPU feature set, every alignment of both buffers", "why_tests_cant": "Vector stores overshoot; whether they stay in the slack depends on the last records of every possible stream.", "anchors": ["src/rle8_extreme_cpu.c:rle_decompress_additional_size", "src/rleX_extreme_common.h:MEMCPY_*,MEMSET_*", "src/rle24_extreme_cpu_decode.h"]}
{"id": "C22", "title": "Header fields and returned sizes are truthful", "statement": "The header stores inSize and the value compress returns (in this order; the low-entropy codecs and rle8m store them the other way round), compress returns the number of bytes it wrote, and decompress returns the stored uncompressed size.", "quantifier": "every input of every codec", "why_tests_cant": "The claim ranges over all byte strings (and every SIMD dispatch pair); tests sample a few files on one machine.", "anchors": ["src/rleX_extreme_cpu_encode.h", "src/rle8_extreme_cpu.h", "src/rleX_Xsl.h", "src/rle8_mmtf.c", "src/rle_sh.c"]}
{"id": "C23", "title": "Compress guards", "statement": "compress returns 0 and writes nothing when a pointer is NULL, inSize is 0, or outSize is below the bound the codec's own *_compress_bounds function gives for inSize.", "quantifier": "every argument tuple", "why_tests_cant": "All argument combinations incl. sizes above 2^30.", "anchors": ["src/rle8_extreme_cpu.c:rle_compress_bounds", "src/rleX_extreme_cpu.h"]}
{"id": "C24", "title": "Inputs above the supported size are refused", "statement": "For inSize above the 2^30 limit rle_compress_bounds signals 'unsupported' (0) and compress refuses the input.", "quantifier": "every inSize > 2^30, every outSize", "why_tests_cant": "Needs >1 GiB inputs and every buffer size.", "anchors": ["src/rle8_extreme_cpu.c:rle_compress_bounds", "src/rleX_extreme_cpu.h"]}
{"id": "C25", "title": "Decompress guards", "statement": "decompress returns 0 and writes nothing when a pointer is NULL, a size is 0, the stored uncompressed size exceeds outSize, or the stored compressed size exceeds inSize (truncated stream).", "quantifier": "every buffer content and argument tuple", "why_tests_cant": "All buffers.", "anchors": ["src/rleX_extreme_cpu.h", "src/rle8_extreme_cpu.h", "src/rleX_Xsl.h", "src/rleX_Xsl_short.h"]}
{"id": "C26", "title": "Trailing bytes after a stream are ignored", "statement": "Decompressing stream ++ t gives the same result as decompressing stream, for every trailing byte string t.", "quantifier": "every stream a compressor can produce, every t", "why_tests_cant": "Every suffix.", "anchors": ["src/rleX_extreme_cpu_decode.h", "src/rle8_low_entropy_cpu.c:rle8m_decompress"]}
{"id": "C27", "title": "Streams are portable between CPUs", "statement": "All SIMD variants of a decoder produce the same uncompressed bytes for the same stream, so a stream written with any encoder variant is read identically by every decoder variant.", "quantifier": "every pair of CPU feature sets, every decodable stream (not only encoder produced)", "why_tests_cant": "A test machine has one feature set.", "anchors": ["src/rleX_extreme_cpu.h", "src/rleX_Xsl.h", "src/rleX_Xsl_short.h", "src/rle8_extreme_cpu.h"]}
{"id": "C28", "title": "Decompress is memory safe on arbitrary input", "statement": "decompress never writes outside outSize + rle_decompress_additional_size() bytes and never reads past inSize plus one vector, whatever bytes it is given.", "quantifier": "every buffer content", "why_tests_cant": "Adversarial inputs cannot be enumerated.", "anchors": ["src/rleX_extreme_cpu_decode.h", "src/rle8_extreme_cpu.h", "src/rleX_Xsl.h"]}
{"id": "C29", "title": "Compression only depends on the input and a bounded over-read", "statement": "The compressed stream depends only on the first inSize + S (24 bit: +S+1, 48 bit: +S+2) bytes at pIn (S = symbol size), i.e. the encoder never reads further.", "quantifier": "every pair of memories agreeing on that prefix", "why_tests_cant": "Over-reads are invisible to functional tests.", "anchors": ["src/rleX_extreme_cpu_encode.h"]}
{"id": "C30", "title": "bitpack encode/decode round-trip", "statement": "The 1, 2, 3 and 4 bit bitpack encoders followed by the matching decoders reproduce every input whose bytes are below 2^bits, for every accepted length, and use exactly the documented number of bytes.", "quantifier": "every block count, every content", "why_tests_cant": "The claim ranges over all byte strings (and every SIMD dispatch pair); tests sample a few files on one machine.", "anchors": ["src/bitpack.h", "src/rle8_mmtf.c:bitpack_encode2_simple,bitpack_encode3_simple"]}
{"id": "C31", "title": "rle8_decompress dispatches on the stored mode", "statement": "A stream written by either rle8_multi_compress or rle8_single_compress is decoded by the same rle8_decompress; an unknown mode byte yields 0.", "quantifier": "every stream, every mode byte", "why_tests_cant": "All mode bytes with all contents.", "anchors": ["src/rle8_extreme_cpu.h:rle8_decompress"]}
{"id": "C32", "title": "CPU feature detection is stable", "statement": "After the first _DetectCPUFeatures call every later call leaves all feature flags unchanged, so one process never switches code paths.", "quantifier": "every cpuid/xgetbv response, every number of calls", "why_tests_cant": "Every CPU.", "anchors": ["src/simd_platform.c:_DetectCPUFeatures"]}
{"id": "C33", "title": "A constant input compresses to a bounded number of bytes", "statement": "An input consisting of one symbol repeated compresses to at most a constant number of bytes (independent of its length) with every run-length codec of the 16/24/32/48/64 bit families.", "quantifier": "every symbol, every length", "why_tests_cant": "Every length up to 2^30.", "anchors": ["src/rleX_extreme_cpu_encode.h"]}
{"id": "C34", "title": "Low-entropy compression info round-trips", "statement": "rle8_low_entropy_read_decompress_info(rle8_low_entropy_write_compress_info(info)) recovers the run-symbol flags and inverts the count table, for every info rle8_low_entropy_get_compress_info can produce.", "quantifier": "every flag set, every permutation of the byte values", "why_tests_cant": "2^256 flag sets, 256! permutations.", "anchors": ["src/rle8_low_entropy_cpu.c"]}
{"id": "C35", "title": "Detected SIMD levels are usable", "statement": "A vector code path is selected only when the operating system has enabled the corresponding register state (so no dispatch can fault on an enabled-in-cpuid but disabled-in-XCR0 machine).", "quantifier": "every cpuid/xgetbv response", "why_tests_cant": "Needs machines with every combination of CPU and OS support.", "anchors": ["src/simd_platform.c:_DetectCPUFeatures", "src/rleX_extreme_cpu.h"]}
{"id": "C36", "title": "Every compressor and decompressor terminates", "statement": "compress terminates on every input; decompress terminates on every buffer of finite length or leaves it (reads past the end), it never loops forever inside the buffer.", "quantifier": "every input, every buffer", "why_tests_cant": "Non-termination cannot be observed by a test.", "anchors": ["src/rleX_extreme_cpu_encode.h", "src/rleX_extreme_cpu_decode.h", "src/rle8_extreme_cpu.h"]}
{"id": "C37", "title": "Decompression with the low-entropy, rle8m, rle8_mmtf128 and rle8_sh decoders stays inside the buffers", "statement": "When decompressing a stream produced by one of these compressors, no byte outside the caller's output buffer is written and no byte outside the stream (rle8_mmtf128: its buffers with the documented slack) is read.", "quantifier": "every stream these compressors can produce, every CPU feature set", "why_tests_cant": "An over-read by a few bytes does not change the result of a test run; only a proof over all streams excludes it.", "anchors": ["src/rle8_low_entropy_cpu.c", "src/rle8_low_entropy_short_cpu.c", "src/rle8_multi_cpu.c", "src/rle8_mmtf128.c", "src/rle8_sh.c"]}
{"id": "C38", "title": "Every row of the codec table pairs a compressor with its decompressor", "statement": "For every codec selectable by number (codec_t), decompressing with the row's decompress function what the row's compress function returned gives the input back; every compressor of the library has exactly one row.", "quantifier": "every row, every input of 1..2^30 bytes, every pair of CPU feature sets", "why_tests_cant": "A test exercises a row with sample inputs on one machine; a mispaired row can agree on most inputs (e.g. sym and byte granularity, or greedy and normal) and differ on rare ones.", "anchors": ["src/codec_funcs.h:codecCallbacks", "src/rle.h"]}
{"id": "C39", "title": "The comparison the fuzzer validates with reports two buffers as equal exactly when they are equal", "statement": "MemoryEquals(a, b, length) returns true if and only if the first length bytes of both buffers agree; it never reads outside the buffers and never makes an aligned load from an unaligned address.", "quantifier": "every length, every pair of buffers, every alignment of either", "why_tests_cant": "A validator that misses some differences makes every test that uses it pass; only a statement about all pairs of buffers shows what a passing fuzz run means.", "anchors": ["src/rle_fuzz.c:MemoryEquals"]}
{"id": "C40", "title": "The iterative fuzzer ends after having tried every configuration exactly once", "statement": "Started with n sections in iterative mode, the fuzzer goes through every combination of symbol length (1 to 16), whole or cut symbols, section order and section lengths (1..280, 768 to 8192 in steps of a sixteenth, 65528..65560) exactly once and then returns.", "quantifier": "every number of sections; the whole run of 62 * 353^n inputs", "why_tests_cant": "A run with the six sections used takes longer than any test can; a configuration that is skipped goes unnoticed.", "anchors": ["src/rle_fuzz.c:fuzz_state_advance", "src/rle_fuzz.c:fuzz_state_increment", "src/rle_fuzz.c:fuzz_sub_state_try_increment"]}
{"id": "C41", "title": "The fuzzer's input generator stays inside its buffer in every state", "statement": "In every state reachable in either mode, whatever the random numbers are, filling the input buffer writes only inside the capacity asked for at the start and nothing behind the size it returns, and every run section is the repetition of its symbol; advancing the state never does anything undefined.", "quantifier": "every number of sections, every history of random draws", "why_tests_cant": "The states of the random mode depend on all earlier draws; a test sees only some of them.", "anchors": ["src/rle_fuzz.c:fuzz_fill_buffer", "src/rle_fuzz.c:fuzz_state_advance", "src/rle_fuzz.c:fuzz_sub_state_get_required_buffer_capacity"]}
{"id": "C42", "title": "The benchmark tool runs exactly the codecs its options ask for", "statement": "Whatever sequence of options the command line tool accepts, a codec is run if and only if it has every feature asked for: family (--extreme, --low-entropy, --sh, --rle-mmtf, --mmtf), symbol size, alignment, single or multi, packed, short, greedy, and the number of recent symbols its format can refer to. The tool accepts nothing but sequences of its options, and refuses a sequence only if an option is repeated, a vector extension cannot be provided, or the combination is one of those it reports as impossible.", "quantifier": "every list of words on the command line, every codec of the table, every processor", "why_tests_cant": "the options combine freely in any order and number, and the selection must agree with what the selected compressor does for each of 121 codecs", "anchors": ["src/main.c: main, CodecMatchesArgs", "src/codec_funcs.h: codec_t, codecCallbacks"]}
{"id": "C43", "title": "--max-simd leaves exactly the allowed vector extensions", "statement": "After the options were accepted the library sees a processor feature if and only if the processor reports it and no --max-simd option excludes it, whatever the order and number of those options.", "quantifier": "every processor, every accepted sequence of options, every feature flag", "why_tests_cant": "a machine can only be tested with the extensions it has; the claim is about all processors and all sequences of restrictions", "anchors": ["src/main.c: main", "src/simd_platform.c: _DetectCPUFeatures"]}
{"id": "C44", "title": "The statistics of the tool's analysis describe the runs of the file", "statement": "hsrlekit <file> --analyze reports, for each symbol length from 1 to 16 and for aligned and unaligned symbols, the number and total length of the maximal runs in the file and of the stretches between them, how many there are of each length, how many runs repeat one of the last sixteen run symbols and which, and how often each byte value occurs; nothing undefined happens.", "quantifier": "every file below 4 GiB, every symbol length, aligned and unaligned runs", "why_tests_cant": "A test compares the numbers for a few files; runs that meet the start or end of the file or a table limit in a new way need all files.", "anchors": ["src/main.c:AnalyzeData"]}
{"id": "C45", "title": "The exit code of the tool's test mode tells whether every selected codec restores the file", "statement": "With --test the tool exits with 0 if and only if the file could be read and every codec the options let through (apart from the transforms the processor cannot run) compressed it and restored it from the compressed data, with the right size; without --test the exit code does not depend on the codecs.", "quantifier": "every list of options, every file below 4 GiB, every behaviour of the codecs (also faulty ones), every number of repetitions the clock asks for, every earlier content of the buffers", "why_tests_cant": "A test of a test driver shows that it accepts working codecs; that it rejects every faulty one is a statement about all possible codecs and buffer contents.", "anchors": ["src/main.c:main", "src/main.c:Validate"]}
{"id": "C46", "title": "Testing a file with the library's own codecs succeeds", "statement": "hsrlekit <file> --test with any accepted options exits with 0: for every file and every codec the options select, the buffers the tool allocates are large enough, compression succeeds and decompression restores the file.", "quantifier": "every file of up to 2^30 bytes, every list of options, every pair of CPU feature sets, every content of the buffers and number of repetitions", "why_tests_cant": "It is the statement that the project's own test never fails, for all files and machines.", "anchors": ["src/main.c:main", "src/codec_funcs.h:codecCallbacks", "src/rle8_extreme_cpu.c:rle_compress_bounds"]}
{"id": "C47", "title": "Compressed output does not depend on the processor", "statement": "A compress function called with the same input, sizes and output capacity returns the same value and writes the same bytes on every processor, whichever vector instructions it has and the library therefore selects.", "quantifier": "every codec of the table, every two sets of CPU features, every input, input size and output size", "why_tests_cant": "A test run exercises the processor it runs on; two builds of the output on different processors are never compared, and only particular inputs would differ.", "anchors": ["src/rle8_extreme_cpu.c:rle8_packed_multi_compress", "src/rleX_extreme_cpu_encode.h", "src/rle24_extreme_cpu_encode.h", "src/rle48_extreme_cpu_encode.h", "src/simd_platform.h:avx2Supported", "src/rleX_Xsl_multibyte_encoder.h", "src/rleX_Xsl_short_multibyte_encoder.h"]}
{"id": "C48", "title": "Compressed size is bounded by how often the input changes", "statement": "For every codec with more than one run symbol (8 bit multi, 16 to 128 bit, symbol table, short and greedy, rle8_mmtf128, rle8_sh, low entropy and rle8m): if k positions of the input hold a byte that differs from the byte one symbol behind it (one byte behind it for rle8_sh, low entropy and rle8m, 16 bytes for rle8_mmtf128), the compressed size is at most a * k + b, with constants a and b that depend on the codec only. The low entropy codecs and rle8m, whose runs have a greatest length, may take two more bytes for every 255 bytes of input (32 for the short versions). So every long run is found and stored as a run, wherever it lies and however it is aligned.", "quantifier": "every input, input size and output size, every set of CPU features, every such codec", "why_tests_cant": "A run missed at some alignment, near the end of a vector or behind a particular prefix costs size, not correctness, so round trip tests pass; only a bound for all inputs excludes it.", "anchors": ["src/rleX_extreme_cpu_encode.h", "src/rle24_extreme_cpu_encode.h", "src/rle48_extreme_cpu_encode.h", "src/rle128_extreme_cpu.h", "src/rle8_extreme_cpu.h", "src/rleX_Xsl.h", "src/rleX_Xsl_multibyte_encoder.h", "src/rleX_Xsl_short.h", "src/rleX_Xsl_short_multibyte_encoder.h", "src/rle8_mmtf.c rle8_mmtf128_compress", "src/rle_sh.c rle8_sh_compress", "src/rle8_low_entropy_cpu.c rle8_low_entropy_compress", "src/rle8_low_entropy_short_cpu.c rle8_low_entropy_short_compress", "src/rle8_low_entropy_cpu.c rle8m_compress"]}
{"id": "C49", "title": "The fuzzer's random numbers come from generators worth the name", "statement": "The numbers the iterative mode draws depend only on how many were drawn before, so every run of the process tests the same inputs; in 2^64 draws every 32 bit number occurs equally often and no state of the generator occurs twice. The numbers the random mode draws come from a generator that is seeded from the clocks at the first draw and then goes on by itself, so that draws made while the clocks stand still differ.", "quantifier": "every number of draws, every 32 bit value, every behaviour of the clocks", "why_tests_cant": "A period of 2^64 and an even distribution over it cannot be run through; whether two draws coincide depends on when the clocks tick.", "anchors": ["src/rle_fuzz.c:fuzz_read_rand_predictable", "src/rle_fuzz.c:fuzz_read_rand"]}
{"id": "C50", "title": "What a compressor writes does not depend on the output buffer", "statement": "If a compressor succeeds with an output buffer, it writes the same bytes and returns the same size with every buffer that is at least as large, whatever the two buffers held before. It turns a call down (returns 0 without writing anything) exactly if a pointer is NULL, a size is 0, or the buffer is smaller than the codec's bounds function says.", "quantifier": "every input, every pair of buffer sizes below 2^32, every content of both buffers, every set of CPU features, every codec of the table and rle8m with every number of sub-sections", "why_tests_cant": "Tests use one buffer size and a freshly cleared buffer; rle8_sh and rle8_mmtf128 move data around inside the caller's buffer, rle8_sh from both of its ends, so a stale byte or a dependence on the size shows only for particular contents and sizes.", "anchors": ["src/rle_sh.c:rle8_sh_compress", "src/rle8_mmtf.c:rle8_mmtf128_compress", "src/rle8_low_entropy_cpu.c:rle8_low_entropy_compress", "src/rle8_low_entropy_cpu.c:rle8m_compress", "src/rleX_extreme_cpu_encode.h", "src/rle.h"]}
{"id": "C51", "title": "Streams are self-delimiting", "statement": "No stream of a compressor is the beginning of a longer stream of the same compressor, and different inputs have different streams. Any number of streams stored one behind the other can be taken apart again with the sizes at the beginning of each: decompressing at each of these positions, with all the rest as input, gives the original files in order.", "quantifier": "every list of inputs, every combination of processors, buffers and addresses on both sides, every codec of the table", "why_tests_cant": "It quantifies over all sequences of streams and over what follows each of them; a decoder that looks at bytes behind its stream fails only for particular neighbours.", "anchors": ["src/rle.h", "src/codec_funcs.h:codecCallbacks", "src/rle8_low_entropy_cpu.c:rle8_low_entropy_decompress", "src/rleX_extreme_cpu.h"]}
{"id": "C52", "title": "The codecs with one run symbol compress an input that is nearly constant", "statement": "If all but k bytes of an input are equal, the compressors that pick one run symbol for the whole input (rle8_single, rle8_packed_single, rle8_single_short, and the only_max_frequency variants of the low entropy codecs) write at most a*k + b bytes with small constants a and b (and for the low entropy codecs two bytes for every 255 or 32 bytes of input): the heuristic that picks the symbol finds it. The symbol that was picked can be read from the stream, and the size of the stream is between the number of other bytes and a small multiple of it.", "quantifier": "every input of up to 2^30 bytes, every symbol, every set of CPU features", "why_tests_cant": "The heuristic looks at part of the input in steps of 16 and 15 bytes and counts in 32 bit variables; whether it misses the symbol depends on where the other bytes are, on the symbol and on the first byte.", "anchors": ["src/rle8_extreme_cpu.c:rle8_single_compress_get_approx_optimal_symbol_sse2", "src/rle8_extreme_cpu.h:rle8_single_compress", "src/rleX_Xsl_short.h:rle8_single_short_compress", "src/rle8_low_entropy_cpu.c:rle8_low_entropy_compress_only_max_frequency", "src/rle8_low_entropy_short_cpu.c"]}
{"id": "C53", "title": "Several threads may use the library at the same time, from the first call on", "statement": "If any number of threads compress and decompress with their own buffers at the same time, and none has used the library before, every call returns what it returns in a process with a single thread, although the variables that record what the processor can do are filled in by the first call without locks. If not even the order of stores is kept (a compiler may reorder them), still no call uses instructions the processor does not report, streams made by one thread can be decompressed by another, and the bytes written do not depend on the race.", "quantifier": "every number of threads and calls, every interleaving of their instructions and of the stores leaving their store buffers (x86), every codec, every input; for the second part every value a load may return without any ordering", "why_tests_cant": "The race is over after the first microseconds of a process and the window depends on the scheduler, the compiler and the memory order of the processor.", "anchors": ["src/simd_platform.c:_DetectCPUFeatures", "src/simd_platform.c:_CpuFeaturesDetected", "src/rleX_extreme_cpu.h:dispatch by feature", "src/codec_funcs.h"]}
{"id": "C54", "title": "The information column of the benchmark is the entropy of the stream relative to its maximum", "statement": "The last column of the benchmark, divided by the compression ratio, is Shannon's entropy of the bytes of the stream divided by the logarithm of the number of different bytes in it. It is greater than 0 and at most 1, it is 1 exactly when all bytes that occur occur equally often, and it depends neither on the order of the bytes nor on which byte values they are. So the column is never more than the ratio.", "quantifier": "every stream of less than 2^64 bytes, every permutation of it and every renaming of the byte values", "why_tests_cant": "That the quotient never exceeds 1 and when it reaches 1 is an inequality over all distributions of 256 counters.", "anchors": ["src/main.c:GetInformationRatio"]}
{"id": "C55", "title": "The OpenCL functions give back what they take, once", "statement": "In every history of rle8m_opencl_init, rle8m_opencl_decompress and rle8m_opencl_destroy calls, whichever driver calls and allocations fail, no object is given back twice or used before it exists or after it is gone, an initialisation that fails and rle8m_opencl_destroy leave nothing behind, and no call returns while a transfer out of the caller's memory is going on.", "quantifier": "every history of calls, every pattern of failing driver calls and allocations (failure points), every placement of objects", "why_tests_cant": "Failure points and histories multiply: a test would have to make each of some thirty calls fail in each history.", "anchors": ["src/rle8_ocl.c", "rle8m_opencl_init", "rle8m_opencl_destroy", "rle8m_opencl_decompress"]}
{"id": "C56", "title": "A fuzzing run that is not stopped means that the codecs restore their inputs", "statement": "fuzz() stops the process when a codec fails to compress an input of the generator, gives back a wrong size or wrong bytes, and for no other reason: while every codec restores every input the iterative mode comes to its end and returns true and the random mode never ends, and a codec that does not restore the inputs of some configuration stops the iterative mode. The fuzzer itself leaves no buffer and does nothing undefined, whatever the codecs do with theirs.", "quantifier": "all codecs (arbitrary compress and decompress functions), all draws, all numbers of sections and both modes, all buffer addresses and contents, any number of rounds", "why_tests_cant": "The fuzzer is the test; whether it would notice a wrong codec ranges over all codecs, and the iterative mode makes 62 * 353^6 rounds.", "anchors": ["src/rle_fuzz.c: fuzz, fuzz_fill_buffer, fuzz_state_advance, MemoryEquals", "src/codec_funcs.h: codecCallbacks"]}
{"id": "C57", "title": "The throughput columns of the benchmark are computed from the measured calls", "statement": "For every codec the benchmark makes one dry run (none with --runs 0), then at least the requested number of calls and goes on until the requested time has passed. The average column is the file size divided by the mean time of the calls after the dry run, the maximum column the file size divided by the shortest time of all calls, and the two deviation columns the file size divided by the mean plus and minus the sample standard deviation of those calls. The array that holds the single times is never left.", "quantifier": "all clocks (arbitrary times of the calls, arbitrary clock readings), all numbers of runs and minimum times, all file sizes, any number of codecs before", "why_tests_cant": "The times are different in every execution; the columns and the growing array must be right for every sequence of times and every number of calls.", "anchors": ["src/main.c: main (benchmark loop: compressionRuns, compressionTime, fastestCompresionTime, individualRunsCount, stdDevNs)"]}
{"id": "C58", "title": "Decompressors hand out nothing but what the stream says", "statement": "For an arbitrary byte string, whether a decompressor fails or returns, the size it returns and the bytes it writes are the same whatever the output buffer held before, and every byte below the returned size has been written, so that the returned block never contains what was in the buffer before the call.", "quantifier": "all decompressors of the codec table and rle8m, all byte strings (also ones no encoder writes), all processors, addresses and sizes, all contents of the output buffer", "why_tests_cant": "It ranges over all malformed streams and all contents of the destination; a test compares one stream with one buffer.", "anchors": ["src/rle8_extreme_cpu.h: rle8_decompress", "src/rleX_extreme_cpu_decode.h", "src/rle8_low_entropy_cpu.c: rle8_low_entropy_decompress, rle8m_decompress", "src/rle_sh.c: rle8_sh_decompress", "src/rle8_mmtf.c: rle8_mmtf128_decompress", "src/codec_funcs.h: codecCallbacks"]}
{"id": "C59", "title": "Decompressors never make a misaligned vector access", "statement": "Whatever addresses the input and output buffers have, whatever bytes the stream consists of and whatever sizes are passed, a decompressor never executes an aligned vector load or store at an address that is not a multiple of the vector size, so a call never faults because of where the caller's buffers happen to lie.", "quantifier": "all decompressors of the codec table and rle8m, all byte strings, sizes, processors, and all addresses of both buffers", "why_tests_cant": "It ranges over all pairs of buffer addresses and all literal and run lengths of all streams; allocators hand tests 16 byte aligned buffers.", "anchors": ["src/rleX_extreme_common.h: MEMCPY_SSE, MEMCPY_AVX, MEMCPY_AVX512, MEMSET_SSE, MEMSET_AVX, MEMSET_AVX512", "src/rle8_low_entropy_cpu.c: rle8_low_entropy_decompress, rle8m_decompress", "src/rle8_low_entropy_short_cpu.c: rle8_low_entropy_short_decompress", "src/codec_funcs.h: codecCallbacks"]}
{"id": "C60", "title": "Decompression work is linear in the stream and the output buffer", "statement": "Whatever bytes a stream consists of, the number of steps a decompressor takes (records read, vector or byte stores of copies and fills) is bounded by a fixed multiple of the size of the stream plus the size of the output buffer: no untrusted stream makes decompression slow.", "quantifier": "all decompressors of the codec table and rle8m, all byte strings, sizes, addresses and processors", "why_tests_cant": "The bound ranges over all byte strings; the streams the compressors produce are never the slow ones.", "anchors": ["src/codec_funcs.h: codecCallbacks", "src/rleX_extreme_common.h: MEMCPY_SSE, MEMSET_SSE", "src/rle8_low_entropy_cpu.c: rle8m_decompress, rle8_low_entropy_decompress_with_info", "src/rle8_low_entropy_short_cpu.c", "src/rleX_extreme_cpu_decode.h"]}
{"id": "C61", "title": "Inputs above the supported size", "statement": "Compression does not refuse inputs larger than the largest supported size (2^30 bytes). If it returns a stream for such an input, decompressing that stream gives the input back.", "quantifier": "all extreme codecs (8 to 128 bit, multi symbol, short, greedy), the Super RLE and MMTF codecs, all processors on both sides, all 32 bit input sizes", "why_tests_cant": "It ranges over inputs of gigabytes; the tests never exceed a few kilobytes.", "anchors": ["src/rle8_extreme_cpu.c: rle_compress_bounds", "src/rle8_extreme_cpu.h", "src/rleX_extreme_cpu.h", "src/rleX_extreme_cpu_encode.h", "src/rleX_extreme_cpu_decode.h", "src/rle128_extreme_cpu.c", "src/rleX_Xsl.h", "src/rleX_Xsl_short.h"]}
{"id": "C62", "title": "Compression work is linear in the input", "statement": "Whatever the input is, the number of steps a compressor takes (rounds of its scanning loops, bytes or bits it writes while scanning, bytes it looks at again when it reconsiders or packs a section) is bounded by a fixed multiple of the size of the input: no input makes compression slow.", "quantifier": "all compressors of the codec table, all inputs of all sizes, all processors, however long the loop is left running", "why_tests_cant": "The bound ranges over all inputs; going back over bytes that were already scanned only happens for some of them.", "anchors": ["src/codec_funcs.h: codecCallbacks", "src/rleX_extreme_cpu_encode.h", "src/rle8_extreme_cpu.h: rle8_single_compress", "src/rleX_Xsl.h", "src/rleX_Xsl_short.h", "src/rle128_extreme_cpu.h", "src/rle_sh.c: rle8_sh_compress", "src/rle8_mmtf.c: rle8_mmtf128_compress", "src/rle8_low_entropy_cpu.c: rle8_low_entropy_compress_with_info"]}
{"id": "C63", "title": "Compressors read nothing outside the input", "statement": "A compressor never accesses a byte at or behind pIn + inSize: vector loads, loads of whole symbols, the copies of literals and the pass that picks a symbol stay inside the input the caller passed.", "quantifier": "all compressors of the codec table, all inputs of all sizes, all processors, all arguments", "why_tests_cant": "A read behind the end is silent unless the buffer ends at an unmapped page, and where the loops stop depends on the input, its size and the vector width.", "anchors": ["src/rleX_extreme_cpu_encode.h", "src/rle24_extreme_cpu_encode.h", "src/rle48_extreme_cpu_encode.h", "src/rle128_extreme_cpu.h", "src/rle8_extreme_cpu.h", "src/rle8_extreme_cpu.c: rle8_single_compress_get_approx_optimal_symbol_sse2", "src/rleX_Xsl.h", "src/rleX_Xsl_short.h", "src/rleX_Xsl_multibyte_encoder.h", "src/rleX_Xsl_short_multibyte_encoder.h", "src/rle8_low_entropy_cpu.c", "src/rle_sh.c", "src/rle8_mmtf.c"]}
{"id": "C64", "title": "Compressors store nothing behind the output they return", "statement": "A compressor that returns a size s > 0 has left its output in pOut[0..s) and every byte of the output buffer from pOut + s on as it was: stores of whole words, of symbols of 3 or 6 bytes and of intermediate data never reach behind the returned size.", "quantifier": "all compressors of the codec table, all inputs, sizes and output sizes, all processors, all previous contents of the output buffer", "why_tests_cant": "Tests look at the returned bytes only; whether a wide store reaches behind them depends on what the last record of the stream is, which depends on the whole input.", "anchors": ["src/rleX_extreme_cpu_encode.h", "src/rle24_extreme_cpu_encode.h", "src/rle48_extreme_cpu_encode.h", "src/rle128_extreme_cpu.h", "src/rle8_extreme_cpu.h", "src/rleX_Xsl.h", "src/rleX_Xsl_short.h", "src/rleX_Xsl_multibyte_encoder.h", "src/rleX_Xsl_short_multibyte_encoder.h", "src/rle8_low_entropy_cpu.c", "src/rle8_low_entropy_short_cpu.c", "src/rle_sh.c", "src/rle8_mmtf.c"]}
{"id": "C65", "title": "Decompressors read nothing behind the stream", "statement": "A caller who owns exactly the bytes the compressor returned, and nothing behind them, can pass them to the decompressor: no byte at or behind pIn + inSize is read. Otherwise the caller has to know how many readable bytes are needed behind the stream.", "quantifier": "all codecs of the codec table, all inputs, all pairs of processors, all bytes behind the stream, all addresses", "why_tests_cant": "A read behind the end is silent unless the buffer ends at an unmapped page; how far it reaches depends on the processor and on where the last literals of the stream are.", "anchors": ["src/rleX_extreme_common.h: MEMCPY_*", "src/rleX_extreme_cpu_decode.h", "src/rle8_extreme_cpu.c", "src/rle128_extreme_cpu.h", "src/rleX_Xsl.h", "src/rleX_Xsl_short.h", "src/rle8_low_entropy_cpu.c", "src/rle_sh.c", "src/rle8_mmtf.c", "src/codec_funcs.h"]}
{"id": "C66", "title": "Output handed to another thread is complete", "statement": "When a thread calls mmtf128_* or mmtf256_* and then sets a variable (a release store) to tell another thread that the output is there, a thread that sees the variable set reads, then and later, exactly the bytes the call returned.", "quantifier": "all inputs, all buffer addresses, all processors, all old contents of the memory, all orders in which stores become visible on x86", "why_tests_cant": "Whether a non-temporal store becomes visible after a later ordinary store depends on the state of the write combining buffers; on most runs it does not.", "anchors": ["src/mmtf.c: mmtf128_encode_aligned_sse41, mmtf128_decode_aligned_sse41, mmtf256_encode_aligned, mmtf256_decode_aligned, mmtf128_encode, mmtf128_decode, mmtf256_encode, mmtf256_decode", "src/rle.h: mmtf128_encode, mmtf256_encode"]}
{"id": "C67", "title": "Transforms work in place", "statement": "mmtf128_*, mmtf256_*, bitmmtf8_* and bitmmtf16_* may be called with pOut == pIn, or with an output buffer that begins before the input and reaches into it: they write what they would write to a separate buffer and change no other byte. Encoding and then decoding a buffer in place leaves the memory as it was.", "quantifier": "all memories, addresses, lengths, processors, both directions, all output addresses that are not inside the input behind its first byte", "why_tests_cant": "Whether a store destroys input that is still to be read depends on the distance of the two buffers, the length, and which of the aligned and unaligned functions is picked.", "anchors": ["src/mmtf.c: mmtf128_encode, mmtf128_decode, mmtf256_encode, mmtf256_decode", "src/bit_mmtf.c: bitmmtf8_encode, bitmmtf8_decode, bitmmtf16_encode, bitmmtf16_decode", "src/rle.h"]}
{"id": "C68", "title": "A symbol table made from one input serves for any other", "statement": "A table made by rle8_low_entropy_get_compress_info (or the other three functions that make one) from any data, written with rle8_low_entropy_write_compress_info and read with rle8_low_entropy_read_decompress_info, unpacks every block that was packed with it by rle8_low_entropy_compress_with_info or the short version, whatever the block has to do with the data the table was made from. Reading the table uses exactly the bytes that were written. The functions stay inside buffers of the sizes they accept.", "quantifier": "all data for the table, all blocks, all positions of the blocks in the source and in the output, all bytes around them, all processors", "why_tests_cant": "The table flags symbols by statistics of other data; a test fixes both the data and the block.", "anchors": ["src/rle.h: rle8_low_entropy_compress_info_t, rle8_low_entropy_decompress_info_t", "src/rle8_low_entropy_cpu.c: rle8_low_entropy_get_compress_info, rle8_low_entropy_write_compress_info, rle8_low_entropy_compress_with_info, rle8_low_entropy_read_decompress_info, rle8_low_entropy_decompress_with_info", "src/rle8_low_entropy_short_cpu.c: rle8_low_entropy_short_compress_with_info, rle8_low_entropy_short_decompress_with_info"]}
{"id": "C69", "title": "The report of a failure is about that failure", "statement": "When decompressed data is wrong, the benchmark and the fuzzer print the position of the first wrong byte, what was expected there and what came out, and 64 bytes of both buffers before and behind it: each byte in its column, a flag at exactly the lines and a mark below exactly the bytes that are wrong. Nothing outside the buffers is read, and equal buffers are not reported. When the fuzzer stops, the file fuzz-failure.bin holds exactly the input that made a codec fail.", "quantifier": "all pairs of buffers, all sizes, all codecs (however wrong), all draws, all rounds of the fuzzer", "why_tests_cant": "The report is printed only when something is broken; a test of the tool with correct codecs never runs it, and the columns depend on where the first difference and the end of the file are.", "anchors": ["src/main.c: Validate", "src/rle_fuzz.c: fuzz"]}
{"id": "C70", "title": "A stream that was cut off is refused", "statement": "If a decompressor is given only the beginning of a stream, with the number of bytes that are there as inSize, it returns 0 and writes nothing, reads nothing behind those bytes, and does so for every place where the stream may have been cut.", "quantifier": "all codecs of the library (rle8m and its OpenCL decompressor included), all inputs, all processors, all lengths shorter than the stream, all contents of the memory behind it, all output buffers", "why_tests_cant": "A test cuts a few streams at a few places, and a read behind a short buffer goes unnoticed as long as the memory there can be read.", "anchors": ["src/rleX_extreme_cpu.h: decompress", "src/rle8_extreme_cpu.h: decompress", "src/rle128_extreme_cpu.h: decompress", "src/rle8_low_entropy_cpu.c: rle8_low_entropy_decompress, rle8m_decompress", "src/rle8_low_entropy_short_cpu.c: rle8_low_entropy_short_decompress", "src/rle8_mmtf.c: rle8_mmtf128_decompress", "src/rle_sh.c: rle8_sh_decompress", "src/rle8_ocl.c: rle8m_opencl_decompress"]}
{"id": "C71", "title": "A call only executes instructions the processor has", "statement": "On an x86-64 machine whose operating system saves the registers the processor reports, no call of the library runs a function compiled for an instruction set extension the machine cannot execute, also not while other threads are still detecting the features. The tool runs, after --max-simd, no function compiled for an extension above that level (SSE2 excepted, which is part of x86-64).", "quantifier": "all answers of cpuid and xgetbv, all compressors, decompressors and dispatching transforms, all schedules of threads making their first calls, all accepted command lines", "why_tests_cant": "A test runs on the processors that are there. A function run on a flag that does not cover its instructions only fails on a machine nobody has, or only in the one build whose compiler chose such an instruction.", "anchors": ["src/simd_platform.c: _DetectCPUFeatures", "src/rleX_extreme_cpu.h: compress, decompress", "src/rle24_extreme_cpu.h", "src/rle48_extreme_cpu.h", "src/rle8_extreme_cpu.h: compress, decompress", "src/rle128_extreme_cpu.h: decompress", "src/rleX_Xsl.h: compress, decompress", "src/rleX_Xsl_short.h: compress, decompress", "src/rle8_low_entropy_cpu.c: rle8_low_entropy_decompress_with_info", "src/rle8_low_entropy_short_cpu.c", "src/mmtf.c: mmtf128_encode, mmtf256_encode", "src/rle_fuzz.c: fuzz_read_rand, MemoryEquals"]}
{"id": "C72", "title": "Without SSE2, and with pointers that are NULL, the move-to-front functions fail", "statement": "mmtf128, mmtf256, rle8_mmtf128 and the bit transforms return 0 and write nothing if the processor has no SSE2 (as rle.h says of the first three), if the output is too small, or if a pointer is NULL.", "quantifier": "all inputs, sizes, pointers and processors", "why_tests_cant": "Every processor a test runs on has SSE2, and a test of NULL pointers covers only the functions and sizes it names.", "anchors": ["src/rle.h: lines 421, 425, 444, 448", "src/mmtf.c: mmtf128_encode, mmtf128_decode, mmtf256_encode, mmtf256_decode", "src/bit_mmtf.c", "src/rle8_mmtf.c: rle8_mmtf128_compress, rle8_mmtf128_decompress"]}
{"id": "C73", "title": "The table of a low entropy stream describes the input", "statement": "The table rle8_low_entropy_get_compress_info (and its short and single symbol variants) makes lists exactly the byte values that occur in the input, those whose runs are stored in more pieces first (the last run of the input counting as one), equally frequent ones by value, and the values that do not occur behind them in ascending order. The multi symbol variant flags exactly the values whose runs are two bytes or longer on average; the single symbol variant flags at most one value, one whose flagging makes the stream shortest.", "quantifier": "all inputs of 1 to 2^32 - 2 bytes, all four variants, all byte values", "why_tests_cant": "The table is not checked by any round trip: a wrong flag or a wrong order still decompresses. Which value comes first in ties, or is left out by a rounded average, shows only for particular inputs.", "anchors": ["src/rle8_low_entropy_cpu.c: rle8_low_entropy_get_compress_info, rle8_low_entropy_get_compress_info_only_max_frequency", "src/rle8_low_entropy_short_cpu.c: rle8_low_entropy_short_get_compress_info, rle8_low_entropy_short_get_compress_info_only_max_frequency", "README.md"]}
{"id": "C74", "title": "A symbol that was used recently is not stored again", "statement": "A stream of an extreme codec consists of the two sizes, records and a terminator. A record is a header whose size depends only on the length of the run and the number of bytes in front of it, and the symbol of the run is stored in it exactly if it is not among the N different symbols used last: N = 0 for the plain codecs, 1 for the packed ones, 3 or 7 for the symbol-LUT codecs, 0, 1, 3 or 7 for the short ones. Before the first record these are fixed symbols. The codecs with one run symbol store it once in front.", "quantifier": "all inputs, all extreme codecs including the greedy and single ones, every processor, every output buffer that is large enough, every position in the stream", "why_tests_cant": "A table that loses an entry, keeps one twice or moves the wrong one still round-trips as long as compressor and decompressor agree; only the size grows, for particular sequences of symbols.", "anchors": ["src/rleX_extreme_cpu_encode.h", "src/rle8_extreme_cpu.h", "src/rleX_Xsl.h", "src/rleX_Xsl_multibyte_encoder.h", "src/rleX_Xsl_short.h", "src/rleX_Xsl_short_multibyte_encoder.h", "src/rle128_extreme_cpu_encode.h", "README.md"]}
{"id": "C75", "title": "The program in the README works", "statement": "The example program of README.md - allocate rle_compress_bounds(fileSize) bytes, rle8_multi_compress into them, allocate fileSize + rle_decompress_additional_size() bytes, rle8_decompress what was returned into them - touches nothing outside its three buffers and restores the data; and so does the same program with any other codec of the benchmark's table whose compressor is used with rle_compress_bounds.", "quantifier": "all data and sizes up to the supported 2^30 bytes, all processors, all addresses and all contents malloc leaves in the buffers", "why_tests_cant": "Reading a vector behind the compressed bytes, or one byte behind the data, goes unnoticed by a test, and the output only outgrows the buffer for particular data of 100 kB or more.", "anchors": ["README.md (example)", "src/rle.h: rle_compress_bounds, rle_decompress_additional_size, rle8_multi_compress, rle8_decompress", "src/rle8_extreme_cpu.h", "src/main.c: codec table"]}
{"id": "C76", "title": "rle8_mmtf128 uses no more bits than a section needs", "statement": "What rle8_mmtf128_compress returns is, behind the two sizes, a sequence of copy sections and repeat sections that spells the input. The indices of a copy section are stored with 2, 3, 4 or 8 bits each, the fewest that all indices of the section fit in. A block of 16 equal indices is never in a copy section. Two repeat sections with no block between them have different indices. A header takes four bytes only if the number of blocks does not fit the one byte form.", "quantifier": "all inputs, all output buffers that are large enough, all contents of registers and output buffer before the call, every section of the stream", "why_tests_cant": "A section packed with more bits than needed, or a repeated block stored as it is, still round-trips; only the size grows, for particular sequences of blocks and particular garbage in a register.", "anchors": ["src/rle8_mmtf.c: rle8_mmtf128_compress", "src/rle.h: rle8_mmtf128_compress", "README.md: 8 Bit RLE + MMTF"]}
{"id": "C77", "title": "A run is stored in one piece", "statement": "What a decompressor finds in the output of the compressor of the same codec is a sequence of records (literal bytes, then a run) and a last piece of literal bytes, which together spell the input and at most one symbol behind it. No run ends before it has to: behind each run the input does not go on with the next byte of the run (with the next symbol, for the codecs that count symbols), or less than a symbol of the input is left.", "quantifier": "all inputs of at most 2^30 bytes, all output buffers that are large enough, all rle8, multi-byte, 128 bit, 3/7 symbol table and short codecs, greedy or not, all instruction sets, every record of the stream", "why_tests_cant": "A run cut in two, or one whose end is stored as literals, still round-trips; whether it happens depends on where the run lies relative to vector widths, to the end of the input and to what was stored before.", "anchors": ["src/rleX_extreme_cpu_encode.h", "src/rle8_extreme_cpu.h", "src/rleX_Xsl.h", "src/rleX_Xsl_short.h", "src/rle128_extreme_cpu.h", "README.md"]}
{"id": "C78", "title": "No run is stored at a loss", "statement": "What a decompressor finds in the output of the compressor of the same codec is a sequence of records (literal bytes, then a run) and a last piece of literal bytes, which together spell the input and at most one symbol behind it. No record takes, apart from its literal bytes, more bytes than its run stands for: storing the run as literal bytes would not have been shorter.", "quantifier": "all inputs of at most 2^30 bytes, all output buffers that are large enough, all rle8, multi-byte, 128 bit, 3/7 symbol table and short codecs, greedy or not, all instruction sets, every record of the stream", "why_tests_cant": "A run stored at a loss still round-trips, and the total may still be smaller than the input; whether a record pays depends on the distance to the previous run, the length of the run and the symbols used before.", "anchors": ["src/rleX_extreme_cpu_encode.h", "src/rle8_extreme_cpu.h", "src/rleX_Xsl.h", "src/rleX_Xsl_short.h", "src/rle128_extreme_cpu.h"]}
{"id": "C79", "title": "The transforms are one to one and turn repetitions, and only these, into zeroes", "statement": "mmtf128, mmtf256, bitmmtf8 and bitmmtf16 map the byte strings of each length one to one onto themselves: encoding a decoded string gives the string back (the other direction is C11, C13). The byte mmtf128_encode (mmtf256_encode) writes for a byte is how many byte values are more recent among the bytes 16, 32, 48, ... (32, 64, ...) places before it; if it has not occurred there, all that occurred and all smaller ones count. So it is 0 exactly where the byte 16 (32) places before is the same, and the first 16 (32) bytes are kept. bitmmtf8_encode (bitmmtf16_encode) writes 0 exactly where a byte is the same as the one (two places) before it; a last odd byte of bitmmtf16 is kept.", "quantifier": "all byte strings, all output sizes that are large enough, all addresses, every CPU feature set with SSE2", "why_tests_cant": "The claim ranges over all byte strings and their histories; a table that is updated wrongly in some lane can still be undone by a decoder with the same error.", "anchors": ["src/mmtf.c", "src/bit_mmtf.c"]}
{"id": "C80", "title": "Two buffers serve for a whole file, block by block", "statement": "A program that cuts a file into blocks, and uses one buffer of the size advertised for the largest block and one buffer of the largest block size plus rle_decompress_additional_size() for compressing and decompressing them one after the other, restores every block and so the file, however long it is: the advertised sizes never shrink for larger blocks, and neither what earlier blocks left in the buffers nor a change of codec or processor between blocks has an effect.", "quantifier": "all files, all cuts into blocks, all sequences of codecs and CPU feature sets, all contents of the two buffers before, and of the part behind the stream after each call", "why_tests_cant": "The claim is about every history of calls that share the buffers; a dependence on left-overs shows only for particular sequences of blocks.", "anchors": ["src/rle.h:rle_compress_bounds", "src/rle.h:rle_decompress_additional_size", "src/rle8_extreme_cpu.c:rle_compress_bounds", "src/rle8_mmtf.c:rle8_mmtf128_compress_bounds", "src/rle_sh.c:rle8_sh_bounds", "src/rle8_low_entropy_cpu.c:rle8_low_entropy_compress_bounds"]}
{"id": "C81", "title": "Transforms and codecs can be chained in any order", "statement": "The transforms (mmtf128, mmtf256, bitmmtf8, bitmmtf16) and the codecs can be applied one after the other, each to the result of the one before, in any number and order; undoing them in the opposite order restores the data, so no two inputs give the same result. Forth and back may run on different processors with different buffers, and the size of each decompression buffer can be taken from the stream itself. With a buffer of n + n/221 + 361 bytes for each stage, n being what the stage before can give, no stage fails.", "quantifier": "all inputs up to 1 GiB, all sequences of stages, all CPU feature sets with SSE2, addresses, buffer sizes and buffer contents of each call", "why_tests_cant": "The sequences are unbounded, and the output of one stage is an unusual input for the next one (for example data that was compressed already).", "anchors": ["src/rle.h:mmtf128_encode", "src/rle.h:mmtf256_encode", "src/rle.h:bitmmtf8_encode", "src/rle.h:bitmmtf16_encode", "src/rle.h:rle_decompress_additional_size", "src/codec_funcs.h:codecCallbacks"]}
{"id": "C82", "title": "Compressing the same file again gives the same stream", "statement": "The stream is a function of the bytes of the file: compressing the same bytes at another time, on another processor, into another buffer, or after they were restored from a stream on another computer, gives the same stream byte by byte.", "quantifier": "all inputs up to 1 GiB, all codecs of the table, all pairs of CPU feature sets, buffer sizes, buffer contents and memory behind the input", "why_tests_cant": "A dependence on the surroundings of a call shows only if two calls with the same bytes and different surroundings are compared, for the right bytes and the right surroundings; no test varies the memory behind the input.", "anchors": ["src/rle.h:rle8_multi_compress", "src/rle.h:rle8_sh_compress", "src/rle.h:rle16_sym_compress", "src/rleX_extreme_cpu_encode.h", "src/rleX_Xsl.h", "src/rleX_Xsl_short.h", "src/rle128_extreme_cpu.h"]}
