{
 "C01": [
  "proved",
  "all 20 codecs, every encoder/decoder CPU, every alignment"
 ],
 "C02": [
  "proved",
  ""
 ],
 "C03": [
  "proved",
  "all four codecs, every CPU pair, every alignment"
 ],
 "C04": [
  "proved",
  "all 22 codecs"
 ],
 "C05": [
  "proved",
  "all short codecs, every CPU pair"
 ],
 "C06": [
  "proved",
  "all 15 greedy encoders with the ordinary decoders"
 ],
 "C07": [
  "partial",
  "False of the code for rle8_low_entropy_compress when all 256 byte values become run symbols (C07_violated). Proved: the only_max_frequency variant for every input, and the plain variant for every input that leaves at least one byte value out. C07_exact says for which inputs the round trip succeeds: exactly those in which some byte value does not occur or has runs shorter than two bytes on average."
 ],
 "C08": [
  "partial",
  "False of the code for rle8_low_entropy_short_compress when all 256 byte values become run symbols (C08_violated). Proved: the only_max_frequency variant for every input, and the plain variant for every input that leaves at least one byte value out. C08_exact says for which inputs the round trip succeeds: exactly those in which some byte value does not occur or has runs shorter than two bytes on average."
 ],
 "C09": [
  "partial",
  "Proved for every k, CPU and address unless all 256 byte values are run symbols; C09_violated shows that case fails."
 ],
 "C10": [
  "proved",
  "Kernels: every schedule (list of work-group steps), every stream of rle8m_compress, also with 256 run symbols; the work-groups only write their own section. Host side: proved after an rle8m_opencl_init with large enough sizes; C10_uninitialised_violated and C10_reinit_violated show that rle8m_opencl_decompress fails without."
 ],
 "C11": [
  "proved",
  ""
 ],
 "C12": [
  "proved",
  ""
 ],
 "C13": [
  "proved",
  ""
 ],
 "C14": [
  "proved",
  "For every value of the uninitialised register and every previous content of the output buffer, for inputs up to 2^32 - 1 bytes."
 ],
 "C15": [
  "proved",
  "Whenever rle8_sh_compress returns without writing outside its output buffer, rle8_sh_decompress restores the input, for every input of 1..2^30 bytes and every buffer size. C20_sh_partial shows a buffer that always suffices; C20_sh_violated shows the size the library asks for does not."
 ],
 "C16": [
  "proved",
  "rle_compress_bounds always suffices for the 16 to 128 bit codecs, and compress never exceeds it."
 ],
 "C17": [
  "partial",
  "rle8 packed multi and rle8 single fit always. The plain multi codec and the packed single codec do not (C17_multi_violated, C17_packed_single_violated, every CPU). Which sizes: the plain multi codec fits up to 43858 bytes (C17_multi_small_partial) and fails for some input of every size from 125052 bytes on (C17_multi_sizes_violated); the packed single codec fits up to 10963 bytes (C17_packed_single_small_partial) and fails from 32126 bytes on (C17_packed_single_sizes_violated). A growth bound of 1 (multi) or 4 (packed single) bytes per 255 bytes is proved for all sizes."
 ],
 "C18": [
  "partial",
  "Proved for 48 and 64 bit symbols. False for 8, 16, 24 and 32 bit symbols (C18_symlut8_violated, C18_symlut_violated, C18_symlut24_violated), for which a growth bound and all small inputs are proved instead."
 ],
 "C19": [
  "partial",
  "Proved for 64 bit symbols and 32 bit symbols in whole symbols, both without greedy. False for 8, 16, 24, 48 bit symbols and 32 bit symbols counted in bytes (C19_short8_violated, C19_short_violated), for every greedy codec (C19_greedy_violated) and for the single codec (C19_single_short_violated). Growth bound and all inputs up to 10000000 bytes proved for every short codec, including greedy and single."
 ],
 "C20": [
  "partial",
  "Violated by the plain low entropy compressors, by rle8m, rle8_mmtf128 and rle8_sh (negations proved); proved for the only_max versions. Room that always suffices: n + n / 255 + 298 bytes (low entropy; n / 32 for the short version; one byte less for every byte value but one that does not occur), 2 n + 4 k + 300 (rle8m, whose output is then at most n + n / 255 + 8 k + 296), n + 13 (rle8_mmtf128), n + n / 221 + 18 (rle8_sh)."
 ],
 "C21": [
  "proved",
  "all extreme codecs, every CPU, every alignment, every other argument"
 ],
 "C22": [
  "proved",
  "all codecs; C22_decompressed_size covers rle8_decompressed_size"
 ],
 "C23": [
  "proved",
  "all codecs and the transforms"
 ],
 "C24": [
  "partial",
  "False on the unchanged code: rle_compress_bounds returns 0 above 2^30, so every outSize passes the guard (C24_*_violated for every family that uses it, rle8_mmtf128 and rle8_sh)."
 ],
 "C25": [
  "partial",
  "All codecs, for a buffer that holds the two sizes. rle8[_packed]_decompress reads the mode byte behind the sizes before it compares them, so for these two at least one more byte has to be readable (C25_rle8_guards_partial); eight bytes are not refused (C25_rle8_violated)."
 ],
 "C26": [
  "partial",
  "Proved for all extreme codecs, rle8_mmtf128, rle8_sh, the only_max low entropy codecs, and the plain low entropy codecs unless all 256 byte values are run symbols. False for rle8m (C26_rle8m_violated)."
 ],
 "C27": [
  "partial",
  "For every family all variants decode every byte string that stands for something to the same bytes. For the symlut codecs the AVX-512 decoder can return on streams the others do not return on (C27_symlut_malformed_differ); on everything else they agree. For rle8_sh and rle8_mmtf128 C27_sh_meaning and C27_mmtf128_meaning say exactly what the decoder does with every byte string, against grammars of their streams (ShSpells, MmSpells)."
 ],
 "C28": [
  "partial",
  "False on the unchanged code for every family (C28_*_violated): a malformed stream makes decompress leave its buffers. Proved for every byte string that stands for as many bytes as its header says, written by a compressor or not, for all sizes the caller may pass (C28_*_partial)."
 ],
 "C29": [
  "partial",
  "Proved for every compressor, except that rle8_mmtf128 also depends on an uninitialised register (C29_mmtf128_register_violated); C29_mmtf128_prefix covers it for each fixed value of that register; C29_mmtf128_buffer: what the output buffer held before does not matter. The codecs of 8 bit symbols depend on nothing behind the input at all (C29_rle8_exact, C29_symlut8_exact, C29_short8_exact)."
 ],
 "C30": [
  "partial",
  "Proved for every routine, length and alignment, except bitpack_encode3_sse2_unaligned_m128i, which is proved for n % 96 <= 48 and shown wrong for four blocks (it does not advance its input pointer in the three block branch)."
 ],
 "C31": [
  "proved",
  "plain and packed"
 ],
 "C32": [
  "proved",
  ""
 ],
 "C33": [
  "proved",
  ""
 ],
 "C34": [
  "proved",
  ""
 ],
 "C35": [
  "partial",
  "Violated by the code: C35_avx2_violated and C35_avx_violated; the partial theorems say where it holds."
 ],
 "C36": [
  "proved",
  "all codecs, both directions, every input"
 ],
 "C37": [
  "partial",
  "Proved for rle8_mmtf128, rle8_sh and the only_max low entropy codecs, and for the plain low entropy codecs and rle8m unless all 256 byte values are run symbols; C37_low_entropy_violated shows that case reads outside the stream."
 ],
 "C38": [
  "partial",
  "All 116 codec rows except LowEntropy and LowEntropyShort, which C07_violated/C08_violated show to be false; the four transforms of the table are C11 and C13. C38_table_complete: every compressor has exactly one row."
 ],
 "C39": [
  "partial",
  "C39_compare_exact says what the comparison decides: beyond 32 bytes only the top bit of most bytes is looked at (C39_compare_violated); equal buffers are always reported as equal and nothing outside is read (proved without restriction)."
 ],
 "C40": [
  "proved",
  "C40_iterative_complete, for every number of sections."
 ],
 "C41": [
  "partial",
  "Everything for the iterative mode and for two or more sections; with one section the random mode divides by zero (C41_random_one_section_violated). C41_random_last_section_unused: the random mode never uses the last section after the first input."
 ],
 "C42": [
  "partial",
  "Every documented value and every order of options, except --low-entropy-short after --not-short: C42_size_violated and C42_short_violated show that the tool takes --x-size 30 for 32 and lets the later option silently withdraw the earlier one."
 ],
 "C43": [
  "proved",
  ""
 ],
 "C44": [
  "partial",
  "Totals, exact lengths, recurring symbols and the histogram are proved for every file on which the analysis is defined, and it is proved when it is. The tables by bits are shifted by 32 rows, a first run is undefined behaviour and the last symbols include bytes behind the file; all three are proved as violations."
 ],
 "C45": [
  "partial",
  "No false alarm, and every codec that restores the file in no attempt is reported. C45_no_file_violated, C45_size_violated and C45_stale_violated show what the tool does not notice."
 ],
 "C46": [
  "partial",
  "Proved for --extreme with any further options: every file of up to 10000 bytes (C46_extreme_small), and every file up to 2^30 bytes for the codecs whose output always fits (C46_extreme_passes). With any options, all 120 codecs and transforms included: every file of up to 4000 bytes of 7 bit text (C46_text_passes), and every file that suits the selected codecs (C46_any_options_partial). For the others C07_violated, C08_violated and the C17 to C20 violations show inputs on which single codecs fail."
 ],
 "C47": [
  "partial",
  "Proved for every row of the codec table but rle8_packed_multi (C47_table_partial). For that one C47_packed_multi_violated gives 18 bytes that take 24 bytes without AVX2 and 25 bytes with it; only AVX2 makes a difference there (C47_packed_multi_partial)."
 ],
 "C48": [
  "partial",
  "Proved for every codec named in the property except rle8_sh: its last run is copied byte for byte unless it is a run of the current run symbol, so a constant input does not get smaller at all (C48_sh_violated). C48_sh_partial is the bound with the length of the last run added. The constants are part of the theorems; they are not claimed to be the smallest."
 ],
 "C49": [
  "partial",
  "Uniform distribution over the period of 2^64 and the exact period are proved for the iterative mode. The generator of the random mode never notes that it was seeded, so every draw is the complement of the clocks at that moment (C49_random_violated); only the first draw is as intended (C49_random_partial)."
 ],
 "C50": [
  "proved",
  "All compressors of the codec table and rle8m. For rle8_mmtf128 the register that is never set (C29) has to hold the same value in both calls."
 ],
 "C51": [
  "partial",
  "Prefix freedom for every codec of the table; injectivity and reading archives for every row except LowEntropy and LowEntropyShort, which C07_violated and C08_violated show to be wrong. rle8m does not ignore what follows its stream (C26_rle8m_violated)."
 ],
 "C52": [
  "partial",
  "Proved for every symbol except 0 when the input does not begin with it, where the code is wrong (C52_rle8_single_violated, C52_single_short_violated). The low entropy variants and the relation between the stored symbol and the size are proved without exception."
 ],
 "C53": [
  "partial",
  "Proved in full for x86 store buffers. Without any memory order proved for all codecs but rle8_packed_multi, whose output depends on AVX2 (C47) and hence on the race: C53_unordered_violated."
 ],
 "C54": [
  "partial",
  "Over exact real numbers instead of double. Fails for streams of equal bytes, where the function divides 0 by 0: C54_constant_violated."
 ],
 "C55": [
  "partial",
  "C55_exact and C55_transfers_exact say exactly which histories go wrong. C55_double_free_violated: initialising again, with larger sizes, frees the list of platforms twice if the first allocation fails or no platform is found. C55_transfers_violated: if a driver call fails after the first transfer was started, rle8m_opencl_decompress returns while the transfer still reads the caller's buffer. Everything else is proved: C55_sound_partial, C55_nothing_left, C55_destroyed, C55_all_or_nothing."
 ],
 "C56": [
  "partial",
  "C56_goes_on, C56_defined, C56_passed and C56_reason hold in full; C56_caught_partial: a failing codec is caught if the comparison sees the difference. C56_missed_violated: codecs that change the first byte of every input of more than 32 bytes run to the end (see C39)."
 ],
 "C57": [
  "partial",
  "Over exact real numbers instead of double. The deviation columns leave out the first call and divide by two less than the number of calls: C57_deviation_violated; they are right only when the first call lies exactly one standard deviation from the mean (C57_deviation_exact), and with two calls they divide by 0 (C57_two_violated). Everything else is proved."
 ],
 "C58": [
  "partial",
  "Proved for every byte string: the outcome, the returned size and the written bytes do not depend on the old contents of the buffer (C58_overlay, C58_rle8m_overlay). That everything below the returned size is written holds for rle8_mmtf128 (C58_mmtf128); for the others it holds if the stream stands for at least as many bytes as its header says (C58_partial, C58_low_entropy_partial, C58_sh), and fails otherwise (C58_stale_violated, C58_rle8m_stale_violated): the header's size is returned without a comparison with what was written."
 ],
 "C59": [
  "proved",
  "The decoders are modelled a second time with every aligned load and store of the caller's buffers checked (Align.lean); the checked decoder is shown to be the decoder, for every stream, address and processor (C59_table, C59_rle8m). The models of the mmtf and bitpack transforms and of the fuzzer's comparison (C11, C30, C39) check the alignment themselves."
 ],
 "C60": [
  "partial",
  "Every decompressor of the table takes at most 18 steps per byte of the stream plus one per byte of the buffer plus 20, for all streams, sizes, addresses and processors (C60_table; sharper for the record codecs, C60_records). rle8m does not: it follows the section offsets in the stream without comparing them, so the same bytes can be decoded once per section; what holds is the product bound (C60_rle8m_partial), and the witnesses show that it is attained up to a constant (C60_rle8m_violated, C60_rle8m_linear_violated)."
 ],
 "C61": [
  "partial",
  "Proved up to 4294967264 bytes for the codecs with 32 bit literal counts and up to 2147483630 bytes for those with 31 bits (packed byte granular codecs and rle8 packed), where 2^31 bytes without runs are compressed without complaint and decompressed to 2^31 bytes of which only the first 128 were written (C61_*_violated). C14_roundtrip and C15_roundtrip cover every 32 bit size. Missing: the last 31 sizes."
 ],
 "C62": [
  "proved",
  "At most 18 steps per input byte plus 3840, for every compressor of the table, all inputs, sizes and processors. Not counted: one pass that picks the symbol (single codecs) or counts the symbols (low entropy), and the copy of the literals behind the last run."
 ],
 "C63": [
  "partial",
  "Proved without exception for every codec of 8 bit symbols, the low entropy codecs, rle8_sh and rle8_mmtf128. The codecs of wider symbols read up to one symbol behind the input (C63_violated: exactly that much, for inputs without repetitions); C63_table_partial proves they never read more."
 ],
 "C64": [
  "partial",
  "Proved for every row of the table but the two short 48 bit codecs without a table, rle8_sh and rle8_mmtf128, for which it is false (C64_short48_violated, C64_sh_violated, C64_mmtf128_violated). The short 48 bit codecs store at most one byte more; for all rows C64_room proves that nothing at or behind outSize is touched."
 ],
 "C65": [
  "partial",
  "False for every codec that copies literals in vectors (C65_violated: one byte of input, every processor). Proved is what suffices: one vector (16, 32 or 64 bytes, C65_vec) behind the stream, and nothing for rle8_sh, rle8_mmtf128 and the only_max low entropy codecs. One byte less than a vector is neither proved sufficient nor shown to fail. The rows LowEntropy and LowEntropyShort fail whatever follows (C37_low_entropy_violated)."
 ],
 "C66": [
  "partial",
  "False where the transform streams: aligned buffers, at least a block, SSE4.1 or AVX2 (C66_violated gives the execution for every such call: none of the whole blocks is visible). Proved for all other calls (C66_mmtf_partial), for all calls if the caller executes sfence or a locked instruction first (C66_mmtf_waits), and for whatever makes ordinary stores only (C66_ordinary), which is all the rest of the library except the aligned functions of bitpack.h."
 ],
 "C67": [
  "proved",
  "Examples beside the theorems show that an output that begins inside the input, behind its first byte, is wrong."
 ],
 "C68": [
  "partial",
  "Restoring is proved for tables that leave at least one byte value unflagged (always so for only_max_frequency tables, and for data in which some byte value is absent). It is false of tables that flag all 256 values (C68_violated). compress_with_info accepts a buffer of inSize bytes and overruns it (C68_room_violated); twice inSize is proved to be enough. read_decompress_info does not respect inSize (C68_read_violated); 288 bytes are proved to be enough."
 ],
 "C69": [
  "partial",
  "The report is proved for all buffers (C69_equal, C69_report, C69_rows). The file is proved to hold the failing input if the codec returned the right size (C69_file_partial); if a codec returns 0 or another size, the fuzzer stops and leaves the file empty (C69_file_violated)."
 ],
 "C70": [
  "partial",
  "Proved for every codec if at least the header is there (eight bytes, nine for rle8) (C70_table_partial, C70_rle8m_partial). With fewer bytes every decompressor reads the header behind them (C70_header_violated, C70_rle8m_header_violated); if zeros happen to follow the first four bytes, the decompressors that are neither short nor low entropy nor rle8_sh even return the size as if they had succeeded (C70_success_violated)."
 ],
 "C71": [
  "partial",
  "Proved for every call of the library (C71_library, C71_threads), and for the tool with and without --max-simd (C71_tool, C71_max_simd). The targets are those of the function attributes; that the machine saves the registers it reports is a hypothesis (false machines: C35). Not true of the fuzzer: MemoryEquals is compiled for AVX2 and fuzz_read_rand for AES, and both run whatever was detected or asked for (C71_fuzz_violated, C71_fuzz_max_simd_violated)."
 ],
 "C72": [
  "partial",
  "Sizes and missing SSE2 are refused by mmtf128 and mmtf256 (C72_mmtf_partial) and nothing else is (C72_mmtf_accepts); the bit transforms refuse NULL pointers too (C72_bitmmtf). mmtf128 and mmtf256 read and write through NULL pointers (C72_mmtf_null_violated). rle8_mmtf128 never asks for SSE2 (C72_mmtf128_sse2_violated)."
 ],
 "C73": [
  "partial",
  "List and order proved for all inputs and variants (C73_listed, C73_order, C73_rest), and exactly which values are flagged (C73_flags_partial, C73_best_partial), by the pieces the code counts. Two things of the English claim are false: the last run counts as one piece however long it is, so a value can be flagged whose runs are shorter than two bytes on average (C73_last_run_violated); the single symbol variant only considers values with an average of three bytes or more, so another value can save more (C73_best_violated: 59 bytes instead of 52)."
 ],
 "C74": [
  "partial",
  "Proved for all inputs and processors for the 16 to 64 bit codecs (C74_multibyte), the 128 bit codecs (C74_128), the symbol-LUT codecs (C74_symlut), the short codecs, greedy and single ones included (C74_short), and rle8_multi, rle8_single and rle8_packed_single (C74_rle8_partial). False for rle8_packed_multi, which stores the symbol again with the runs its scalar code finds at the end of the input (C74_rle8_packed_multi_violated: a shorter stream with the same content)."
 ],
 "C75": [
  "partial",
  "The program as printed restores all data of up to 27538 bytes (C75_readme_partial); with rle8_packed_multi data of every supported size (C75_packed_multi); with every codec of the table up to a size given for each, 2^30 for the plain and packed ones, provided that as many bytes as the type of a symbol may be read behind the data (C75_program_partial). False: the program as printed overflows its heap buffer for some data of every size from 125052 bytes on (C75_readme_violated), others at some size (C75_larger_violated), and with symbols of more than 8 bits it reads behind the data at every size (C75_reads_violated). Open: rle8_multi between 27539 and 125051 bytes (fails for some of these, C17_multi_violated)."
 ],
 "C76": [
  "partial",
  "Proved for all inputs and all garbage, except for the bits of the first copy section (C76_mmtf128_partial); for all sections if the register currentBitMask happens to be zero (C76_mmtf128_zeroed). The first section is stored with too many bits if the uninitialised register held ones (C76_mmtf128_violated). The bits are chosen per section, not per block of 16 bytes as the README can be read (C76_mmtf128_block_violated)."
 ],
 "C77": [
  "partial",
  "Proved for all codecs of this kind; for those of 128 bit symbols only up to runs that end where exactly one symbol is left (C77_128_partial). There the property is false for all four (C77_128_violated): of 64 equal bytes the last 16 are stored as they are."
 ],
 "C78": [
  "partial",
  "Proved for the multi-byte and 128 bit codecs, the table codecs of 48 and 64 bit symbols, the short codecs of 64 bit symbols (and 32 bit symbols counted as a whole) with the ordinary encoder, and rle8_packed_multi. All other codecs store some runs at a loss, but only far behind the previous run; the _partial theorems say how far and how much. It is false for rle8_multi, rle8_single, rle8_packed_single behind 255 literals (C78_rle8_violated: by exactly 1, 2, 4 bytes), for the table codecs of 24 bit symbols behind 126 or 62 literals (C78_symlut_violated), and for all remaining ones (C78_symlut_all_violated, C78_short_violated, from C18 and C19)."
 ],
 "C79": [
  "proved",
  "All four transforms, both directions."
 ],
 "C80": [
  "partial",
  "For every sequence of blocks each of which could be compressed by itself (C80_session_partial), for the extreme codecs with rle_compress_bounds up to the sizes of C75 (C80_extreme_partial, C80_file_partial), for all codecs with one byte more per 221 (C80_mixed_partial). Advertised sizes are monotone up to 1 GiB (C80_monotone); above, the buffer for the largest block is refused for every block (C80_large_violated). Missing: what C07, C08, C17 to C20, C63 and C65 show to fail for a single block."
 ],
 "C81": [
  "partial",
  "Every chain that succeeds is undone (C81_chain_partial) and is injective (C81_injective_partial); chains with buffers of the stated sizes succeed up to the sizes of C75 (C81_total_partial). Missing: the two low entropy codecs of C07 and C08, and larger data than the codecs can take with certainty."
 ],
 "C82": [
  "partial",
  "Proved for all codecs of 8 bit symbols (rle8_packed_multi only if both processors have AVX2 or both do not), for rle8_sh and the low entropy codecs, and for rle8_mmtf128 with the same value in its uninitialised register; for the codecs of wider symbols if one symbol behind the file is the same both times (C82_same_partial, C82_again_partial). rle8m without exception (C82_rle8m_same). For each of the 99 compressors of wider symbols C82_behind_violated gives 16 bytes with two different streams on every processor, depending on what lies behind them."
 ]
}