{
 "claims": [
  {
   "property": "C01",
   "status": "proved",
   "theorems": [
    "Hrk.C01_multibyte_roundtrip"
   ],
   "note": "all 20 codecs, every encoder/decoder CPU, every alignment"
  },
  {
   "property": "C02",
   "status": "proved",
   "theorems": [
    "Hrk.C02_rle128_roundtrip"
   ],
   "note": ""
  },
  {
   "property": "C03",
   "status": "proved",
   "theorems": [
    "Hrk.C03_rle8_roundtrip"
   ],
   "note": "all four codecs, every CPU pair, every alignment"
  },
  {
   "property": "C04",
   "status": "proved",
   "theorems": [
    "Hrk.C04_symlut_roundtrip"
   ],
   "note": "all 22 codecs"
  },
  {
   "property": "C05",
   "status": "proved",
   "theorems": [
    "Hrk.C05_short_roundtrip"
   ],
   "note": "all short codecs, every CPU pair"
  },
  {
   "property": "C06",
   "status": "proved",
   "theorems": [
    "Hrk.C06_greedy_roundtrip"
   ],
   "note": "all 15 greedy encoders with the ordinary decoders"
  },
  {
   "property": "C07",
   "status": "partial",
   "theorems": [
    "Hrk.C07_only_max_roundtrip",
    "Hrk.C07_roundtrip_partial",
    "Hrk.C07_violated",
    "Hrk.C07_exact"
   ],
   "note": "False of the code for rle8_low_entropy_compress when all 256 byte values become run symbols (C07_violated). Proved: the only_max_frequency variant for every input, and the plain variant for every input that leaves at least one byte value out. C07_exact says for which inputs the round trip succeeds: exactly those in which some byte value does not occur or has runs shorter than two bytes on average."
  },
  {
   "property": "C08",
   "status": "partial",
   "theorems": [
    "Hrk.C08_only_max_roundtrip",
    "Hrk.C08_roundtrip_partial",
    "Hrk.C08_violated",
    "Hrk.C08_exact"
   ],
   "note": "False of the code for rle8_low_entropy_short_compress when all 256 byte values become run symbols (C08_violated). Proved: the only_max_frequency variant for every input, and the plain variant for every input that leaves at least one byte value out. C08_exact says for which inputs the round trip succeeds: exactly those in which some byte value does not occur or has runs shorter than two bytes on average."
  },
  {
   "property": "C09",
   "status": "partial",
   "theorems": [
    "Hrk.C09_roundtrip_partial",
    "Hrk.C09_violated"
   ],
   "note": "Proved for every k, CPU and address unless all 256 byte values are run symbols; C09_violated shows that case fails."
  },
  {
   "property": "C10",
   "status": "proved",
   "theorems": [
    "Hrk.C10_kernel_schedule_independent",
    "Hrk.C10_kernel_own_section",
    "Hrk.C10_kernel_completes",
    "Hrk.C10_opencl_roundtrip",
    "Hrk.C10_uninitialised_violated",
    "Hrk.C10_reinit_violated"
   ],
   "note": "Kernels: every schedule (list of work-group steps), every stream of rle8m_compress, also with 256 run symbols; the work-groups only write their own section. Host side: proved after an rle8m_opencl_init with large enough sizes; C10_uninitialised_violated and C10_reinit_violated show that rle8m_opencl_decompress fails without."
  },
  {
   "property": "C11",
   "status": "proved",
   "theorems": [
    "Hrk.C11_mmtf_roundtrip"
   ],
   "note": ""
  },
  {
   "property": "C12",
   "status": "proved",
   "theorems": [
    "Hrk.C12_mmtf_encode_lanes",
    "Hrk.C12_mmtf_decode_lanes",
    "Hrk.C12_mmtf_paths_agree"
   ],
   "note": ""
  },
  {
   "property": "C13",
   "status": "proved",
   "theorems": [
    "Hrk.C13_bitmmtf8_encode",
    "Hrk.C13_bitmmtf8_decode",
    "Hrk.C13_bitmmtf16_encode",
    "Hrk.C13_bitmmtf16_decode",
    "Hrk.C13_bitmmtf8_roundtrip",
    "Hrk.C13_bitmmtf16_roundtrip",
    "Hrk.C13_bitmmtf_decode_length"
   ],
   "note": ""
  },
  {
   "property": "C14",
   "status": "proved",
   "theorems": [
    "Hrk.C14_roundtrip"
   ],
   "note": "For every value of the uninitialised register and every previous content of the output buffer, for inputs up to 2^32 - 1 bytes."
  },
  {
   "property": "C15",
   "status": "proved",
   "theorems": [
    "Hrk.C15_roundtrip"
   ],
   "note": "Whenever rle8_sh_compress returns without writing outside its output buffer, rle8_sh_decompress restores the input, for every input of 1..2^30 bytes and every buffer size. C20_sh_partial shows a buffer that always suffices; C20_sh_violated shows the size the library asks for does not."
  },
  {
   "property": "C16",
   "status": "proved",
   "theorems": [
    "Hrk.C16_rle128_bounds",
    "Hrk.C16_multibyte_bounds"
   ],
   "note": "rle_compress_bounds always suffices for the 16 to 128 bit codecs, and compress never exceeds it."
  },
  {
   "property": "C17",
   "status": "partial",
   "theorems": [
    "Hrk.C17_multi_violated",
    "Hrk.C17_multi_sizes_violated",
    "Hrk.C17_packed_multi_bounds",
    "Hrk.C17_rle8_growth_partial",
    "Hrk.C17_rle8_small_partial",
    "Hrk.C17_multi_small_partial",
    "Hrk.C17_packed_single_small_partial",
    "Hrk.C17_single_bounds",
    "Hrk.C17_packed_single_violated",
    "Hrk.C17_packed_single_sizes_violated"
   ],
   "note": "rle8 packed multi and rle8 single fit always. The plain multi codec and the packed single codec do not (C17_multi_violated, C17_packed_single_violated, every CPU). Which sizes: the plain multi codec fits up to 43858 bytes (C17_multi_small_partial) and fails for some input of every size from 125052 bytes on (C17_multi_sizes_violated); the packed single codec fits up to 10963 bytes (C17_packed_single_small_partial) and fails from 32126 bytes on (C17_packed_single_sizes_violated). A growth bound of 1 (multi) or 4 (packed single) bytes per 255 bytes is proved for all sizes."
  },
  {
   "property": "C18",
   "status": "partial",
   "theorems": [
    "Hrk.C18_symlut_violated",
    "Hrk.C18_symlut24_violated",
    "Hrk.C18_symlut8_violated",
    "Hrk.C18_symlut_bounds",
    "Hrk.C18_symlut_growth_partial",
    "Hrk.C18_symlut_small_partial"
   ],
   "note": "Proved for 48 and 64 bit symbols. False for 8, 16, 24 and 32 bit symbols (C18_symlut8_violated, C18_symlut_violated, C18_symlut24_violated), for which a growth bound and all small inputs are proved instead."
  },
  {
   "property": "C19",
   "status": "partial",
   "theorems": [
    "Hrk.C19_short_violated",
    "Hrk.C19_short8_violated",
    "Hrk.C19_greedy_violated",
    "Hrk.C19_single_short_violated",
    "Hrk.C19_short_bounds",
    "Hrk.C19_short_growth_partial",
    "Hrk.C19_short_small_partial"
   ],
   "note": "Proved for 64 bit symbols and 32 bit symbols in whole symbols, both without greedy. False for 8, 16, 24, 48 bit symbols and 32 bit symbols counted in bytes (C19_short8_violated, C19_short_violated), for every greedy codec (C19_greedy_violated) and for the single codec (C19_single_short_violated). Growth bound and all inputs up to 10000000 bytes proved for every short codec, including greedy and single."
  },
  {
   "property": "C20",
   "status": "partial",
   "theorems": [
    "Hrk.C20_low_entropy_only_max_fits",
    "Hrk.C20_low_entropy_violated",
    "Hrk.C20_low_entropy_partial",
    "Hrk.C20_rle8m_size_partial",
    "Hrk.Cli.C20_low_entropy_values_partial",
    "Hrk.C20_mmtf128_partial",
    "Hrk.C20_mmtf128_violated",
    "Hrk.C20_rle8m_partial",
    "Hrk.C20_rle8m_violated",
    "Hrk.C20_sh_accepted",
    "Hrk.C20_sh_violated",
    "Hrk.C20_sh_partial"
   ],
   "note": "Violated by the plain low entropy compressors, by rle8m, rle8_mmtf128 and rle8_sh (negations proved); proved for the only_max versions. Room that always suffices: n + n / 255 + 298 bytes (low entropy; n / 32 for the short version; one byte less for every byte value but one that does not occur), 2 n + 4 k + 300 (rle8m, whose output is then at most n + n / 255 + 8 k + 296), n + 13 (rle8_mmtf128), n + n / 221 + 18 (rle8_sh)."
  },
  {
   "property": "C21",
   "status": "proved",
   "theorems": [
    "Hrk.C21_rle128_inside",
    "Hrk.C21_rle8_inside",
    "Hrk.C21_short_inside",
    "Hrk.C21_symlut_inside",
    "Hrk.C21_multibyte_inside"
   ],
   "note": "all extreme codecs, every CPU, every alignment, every other argument"
  },
  {
   "property": "C22",
   "status": "proved",
   "theorems": [
    "Hrk.C22_low_entropy_header",
    "Hrk.C22_rle128_header",
    "Hrk.C22_rle8_header",
    "Hrk.C22_short_header",
    "Hrk.C22_symlut_header",
    "Hrk.C22_multibyte_header",
    "Hrk.C22_mmtf128_header",
    "Hrk.C22_rle8m_header",
    "Hrk.C22_decompressed_size",
    "Hrk.C22_sh_header"
   ],
   "note": "all codecs; C22_decompressed_size covers rle8_decompressed_size"
  },
  {
   "property": "C23",
   "status": "proved",
   "theorems": [
    "Hrk.C23_low_entropy_guards",
    "Hrk.C23_rle128_guards",
    "Hrk.C23_mmtf_guards",
    "Hrk.C23_bitmmtf_guards",
    "Hrk.C23_rle8_guards",
    "Hrk.C23_short_guards",
    "Hrk.C23_symlut_guards",
    "Hrk.C23_multibyte_guards",
    "Hrk.C23_mmtf128_guards",
    "Hrk.C23_rle8m_guards",
    "Hrk.C23_sh_guards"
   ],
   "note": "all codecs and the transforms"
  },
  {
   "property": "C24",
   "status": "partial",
   "theorems": [
    "Hrk.C24_rle128_violated",
    "Hrk.C24_rle8_violated",
    "Hrk.C24_short_violated",
    "Hrk.C24_symlut_violated",
    "Hrk.C24_multibyte_violated",
    "Hrk.C24_mmtf128_violated",
    "Hrk.C24_sh_violated"
   ],
   "note": "False on the unchanged code: rle_compress_bounds returns 0 above 2^30, so every outSize passes the guard (C24_*_violated for every family that uses it, rle8_mmtf128 and rle8_sh)."
  },
  {
   "property": "C25",
   "status": "partial",
   "theorems": [
    "Hrk.C25_low_entropy_guards",
    "Hrk.C25_rle128_guards",
    "Hrk.C25_opencl_guards",
    "Hrk.C25_rle8_guards_partial",
    "Hrk.C25_rle8_violated",
    "Hrk.C25_short_guards",
    "Hrk.C25_symlut_guards",
    "Hrk.C25_multibyte_guards",
    "Hrk.C25_mmtf128_guards",
    "Hrk.C25_rle8m_guards",
    "Hrk.C25_sh_guards"
   ],
   "note": "All codecs, for a buffer that holds the two sizes. rle8[_packed]_decompress reads the mode byte behind the sizes before it compares them, so for these two at least one more byte has to be readable (C25_rle8_guards_partial); eight bytes are not refused (C25_rle8_violated)."
  },
  {
   "property": "C26",
   "status": "partial",
   "theorems": [
    "Hrk.C26_low_entropy_only_max_trailing",
    "Hrk.C26_low_entropy_trailing_partial",
    "Hrk.C26_rle128_trailing",
    "Hrk.C26_rle8_trailing",
    "Hrk.C26_short_trailing",
    "Hrk.C26_symlut_trailing",
    "Hrk.C26_multibyte_trailing",
    "Hrk.C26_mmtf128_trailing",
    "Hrk.C26_rle8m_violated",
    "Hrk.C26_sh_trailing"
   ],
   "note": "Proved for all extreme codecs, rle8_mmtf128, rle8_sh, the only_max low entropy codecs, and the plain low entropy codecs unless all 256 byte values are run symbols. False for rle8m (C26_rle8m_violated)."
  },
  {
   "property": "C27",
   "status": "partial",
   "theorems": [
    "Hrk.C27_low_entropy_portable",
    "Hrk.C27_rle128_portable",
    "Hrk.C27_mmtf128_meaning",
    "Hrk.C27_mmtf128_unique",
    "Hrk.C27_mmtf128_written",
    "Hrk.C27_mmtf128_columns",
    "Hrk.C27_rle8_portable",
    "Hrk.C27_rle8m_portable",
    "Hrk.C27_sh_meaning",
    "Hrk.C27_sh_unique",
    "Hrk.C27_sh_written",
    "Hrk.C27_short_portable",
    "Hrk.C27_symlut_portable",
    "Hrk.C27_symlut_same_parser",
    "Hrk.C27_symlut_malformed_differ",
    "Hrk.C27_multibyte_portable"
   ],
   "note": "For every family all variants decode every byte string that stands for something to the same bytes. For the symlut codecs the AVX-512 decoder can return on streams the others do not return on (C27_symlut_malformed_differ); on everything else they agree. For rle8_sh and rle8_mmtf128 C27_sh_meaning and C27_mmtf128_meaning say exactly what the decoder does with every byte string, against grammars of their streams (ShSpells, MmSpells)."
  },
  {
   "property": "C28",
   "status": "partial",
   "theorems": [
    "Hrk.C28_low_entropy_violated",
    "Hrk.C28_rle128_violated",
    "Hrk.C28_mmtf128_partial",
    "Hrk.C28_rle8_violated",
    "Hrk.C28_multibyte_partial",
    "Hrk.C28_rle128_partial",
    "Hrk.C28_rle8_partial",
    "Hrk.C28_symlut_partial",
    "Hrk.C28_short_partial",
    "Hrk.C28_low_entropy_partial",
    "Hrk.C28_rle8m_partial",
    "Hrk.C28_sh_partial",
    "Hrk.C28_short_violated",
    "Hrk.C28_symlut_violated",
    "Hrk.C28_multibyte_violated",
    "Hrk.C28_mmtf128_violated",
    "Hrk.C28_rle8m_violated",
    "Hrk.C28_sh_violated"
   ],
   "note": "False on the unchanged code for every family (C28_*_violated): a malformed stream makes decompress leave its buffers. Proved for every byte string that stands for as many bytes as its header says, written by a compressor or not, for all sizes the caller may pass (C28_*_partial)."
  },
  {
   "property": "C29",
   "status": "partial",
   "theorems": [
    "Hrk.C29_low_entropy_prefix",
    "Hrk.C29_rle128_prefix",
    "Hrk.C29_rle8_exact",
    "Hrk.C29_symlut8_exact",
    "Hrk.C29_short8_exact",
    "Hrk.C29_rle8_prefix",
    "Hrk.C29_short_prefix",
    "Hrk.C29_symlut_prefix",
    "Hrk.C29_multibyte_prefix",
    "Hrk.C29_mmtf128_prefix",
    "Hrk.C29_mmtf128_register_violated",
    "Hrk.C29_mmtf128_buffer",
    "Hrk.C29_rle8m_prefix",
    "Hrk.C29_sh_prefix",
    "Hrk.C29_sh_buffer"
   ],
   "note": "Proved for every compressor, except that rle8_mmtf128 also depends on an uninitialised register (C29_mmtf128_register_violated); C29_mmtf128_prefix covers it for each fixed value of that register; C29_mmtf128_buffer: what the output buffer held before does not matter. The codecs of 8 bit symbols depend on nothing behind the input at all (C29_rle8_exact, C29_symlut8_exact, C29_short8_exact)."
  },
  {
   "property": "C30",
   "status": "partial",
   "theorems": [
    "Hrk.C30_bitpack1",
    "Hrk.C30_bitpack2",
    "Hrk.C30_bitpack3_3",
    "Hrk.C30_bitpack3_6",
    "Hrk.C30_bitpack4",
    "Hrk.C30_bitpack4_m128i",
    "Hrk.C30_bitpack2_m128i",
    "Hrk.C30_bitpack3_m128i_partial",
    "Hrk.C30_bitpack3_m128i_violated"
   ],
   "note": "Proved for every routine, length and alignment, except bitpack_encode3_sse2_unaligned_m128i, which is proved for n % 96 <= 48 and shown wrong for four blocks (it does not advance its input pointer in the three block branch)."
  },
  {
   "property": "C31",
   "status": "proved",
   "theorems": [
    "Hrk.C31_mode"
   ],
   "note": "plain and packed"
  },
  {
   "property": "C32",
   "status": "proved",
   "theorems": [
    "Hrk.C32_detection_stable",
    "Hrk.C32_detection_threads"
   ],
   "note": ""
  },
  {
   "property": "C33",
   "status": "proved",
   "theorems": [
    "Hrk.C33_multibyte_constant"
   ],
   "note": ""
  },
  {
   "property": "C34",
   "status": "proved",
   "theorems": [
    "Hrk.C34_info_roundtrip",
    "Hrk.C34_order_perm"
   ],
   "note": ""
  },
  {
   "property": "C35",
   "status": "partial",
   "theorems": [
    "Hrk.C35_avx2_violated",
    "Hrk.C35_avx_violated",
    "Hrk.C35_usable_partial",
    "Hrk.C35_sse_partial",
    "Hrk.C35_reports"
   ],
   "note": "Violated by the code: C35_avx2_violated and C35_avx_violated; the partial theorems say where it holds."
  },
  {
   "property": "C36",
   "status": "proved",
   "theorems": [
    "Hrk.C36_low_entropy_terminates",
    "Hrk.C36_rle128_terminates",
    "Hrk.C36_rle8_terminates",
    "Hrk.C36_short_terminates",
    "Hrk.C36_symlut_terminates",
    "Hrk.C36_multibyte_terminates",
    "Hrk.C36_mmtf128_terminates",
    "Hrk.C36_rle8m_terminates",
    "Hrk.C36_sh_terminates"
   ],
   "note": "all codecs, both directions, every input"
  },
  {
   "property": "C37",
   "status": "partial",
   "theorems": [
    "Hrk.C37_low_entropy_only_max_inside",
    "Hrk.C37_low_entropy_inside_partial",
    "Hrk.C37_low_entropy_violated",
    "Hrk.C37_mmtf128_inside",
    "Hrk.C37_rle8m_inside_partial",
    "Hrk.C37_sh_inside"
   ],
   "note": "Proved for rle8_mmtf128, rle8_sh and the only_max low entropy codecs, and for the plain low entropy codecs and rle8m unless all 256 byte values are run symbols; C37_low_entropy_violated shows that case reads outside the stream."
  },
  {
   "property": "C38",
   "status": "partial",
   "theorems": [
    "Hrk.C38_table_partial",
    "Hrk.C38_table_low_entropy",
    "Hrk.C38_table_complete"
   ],
   "note": "All 116 codec rows except LowEntropy and LowEntropyShort, which C07_violated/C08_violated show to be false; the four transforms of the table are C11 and C13. C38_table_complete: every compressor has exactly one row."
  },
  {
   "property": "C39",
   "status": "partial",
   "theorems": [
    "Hrk.C39_compare_safe",
    "Hrk.C39_compare_equal",
    "Hrk.C39_compare_exact",
    "Hrk.C39_compare_short_partial",
    "Hrk.C39_compare_violated"
   ],
   "note": "C39_compare_exact says what the comparison decides: beyond 32 bytes only the top bit of most bytes is looked at (C39_compare_violated); equal buffers are always reported as equal and nothing outside is read (proved without restriction)."
  },
  {
   "property": "C40",
   "status": "proved",
   "theorems": [
    "Hrk.Fuzz.C40_iterative_complete"
   ],
   "note": "C40_iterative_complete, for every number of sections."
  },
  {
   "property": "C41",
   "status": "partial",
   "theorems": [
    "Hrk.Fuzz.C41_fill_inside",
    "Hrk.Fuzz.C41_capacity_constant",
    "Hrk.Fuzz.C41_random_safe",
    "Hrk.Fuzz.C41_random_last_section_unused",
    "Hrk.Fuzz.C41_random_one_section_violated"
   ],
   "note": "Everything for the iterative mode and for two or more sections; with one section the random mode divides by zero (C41_random_one_section_violated). C41_random_last_section_unused: the random mode never uses the last section after the first input."
  },
  {
   "property": "C42",
   "status": "partial",
   "theorems": [
    "Hrk.Cli.C42_only_options",
    "Hrk.Cli.C42_selection_partial",
    "Hrk.Cli.C42_size_violated",
    "Hrk.Cli.C42_short_violated",
    "Hrk.Cli.C42_two_families",
    "Hrk.Cli.C42_accepts"
   ],
   "note": "Every documented value and every order of options, except --low-entropy-short after --not-short: C42_size_violated and C42_short_violated show that the tool takes --x-size 30 for 32 and lets the later option silently withdraw the earlier one."
  },
  {
   "property": "C43",
   "status": "proved",
   "theorems": [
    "Hrk.Cli.C43_max_simd"
   ],
   "note": ""
  },
  {
   "property": "C44",
   "status": "partial",
   "theorems": [
    "Hrk.Analyze.C44_runs_partial",
    "Hrk.Analyze.C44_defined",
    "Hrk.Analyze.C44_recurring",
    "Hrk.Analyze.C44_histogram",
    "Hrk.Analyze.C44_conserved",
    "Hrk.Analyze.C44_bits_violated",
    "Hrk.Analyze.C44_bits_partial",
    "Hrk.Analyze.C44_first_run_violated",
    "Hrk.Analyze.C44_overread_violated"
   ],
   "note": "Totals, exact lengths, recurring symbols and the histogram are proved for every file on which the analysis is defined, and it is proved when it is. The tables by bits are shifted by 32 rows, a first run is undefined behaviour and the last symbols include bytes behind the file; all three are proved as violations."
  },
  {
   "property": "C45",
   "status": "partial",
   "theorems": [
    "Hrk.Cli.C45_no_false_alarm",
    "Hrk.Cli.C45_detects_partial",
    "Hrk.Cli.C45_benchmark",
    "Hrk.Cli.C45_no_file_violated",
    "Hrk.Cli.C45_size_violated",
    "Hrk.Cli.C45_stale_violated",
    "Hrk.Cli.C45_buffer"
   ],
   "note": "No false alarm, and every codec that restores the file in no attempt is reported. C45_no_file_violated, C45_size_violated and C45_stale_violated show what the tool does not notice."
  },
  {
   "property": "C46",
   "status": "partial",
   "theorems": [
    "Hrk.Cli.C46_any_options_partial",
    "Hrk.Cli.C46_text_passes",
    "Hrk.Cli.C46_test_passes_partial",
    "Hrk.Cli.C46_extreme_passes",
    "Hrk.Cli.C46_extreme_small"
   ],
   "note": "Proved for --extreme with any further options: every file of up to 10000 bytes (C46_extreme_small), and every file up to 2^30 bytes for the codecs whose output always fits (C46_extreme_passes). With any options, all 120 codecs and transforms included: every file of up to 4000 bytes of 7 bit text (C46_text_passes), and every file that suits the selected codecs (C46_any_options_partial). For the others C07_violated, C08_violated and the C17 to C20 violations show inputs on which single codecs fail."
  },
  {
   "property": "C47",
   "status": "partial",
   "theorems": [
    "Hrk.C47_multibyte_same",
    "Hrk.C47_symlut_same",
    "Hrk.C47_short_same",
    "Hrk.C47_rle8_same_partial",
    "Hrk.C47_packed_multi_partial",
    "Hrk.C47_packed_multi_violated",
    "Hrk.C47_table_partial"
   ],
   "note": "Proved for every row of the codec table but rle8_packed_multi (C47_table_partial). For that one C47_packed_multi_violated gives 18 bytes that take 24 bytes without AVX2 and 25 bytes with it; only AVX2 makes a difference there (C47_packed_multi_partial)."
  },
  {
   "property": "C48",
   "status": "partial",
   "theorems": [
    "Hrk.C48_low_entropy_changes",
    "Hrk.C48_rle8m_changes",
    "Hrk.C48_mmtf128_changes",
    "Hrk.C48_sh_partial",
    "Hrk.C48_sh_violated",
    "Hrk.C48_multibyte_changes",
    "Hrk.C48_128_changes",
    "Hrk.C48_symlut_changes",
    "Hrk.C48_short_changes",
    "Hrk.C48_greedy_changes",
    "Hrk.C48_rle8_multi_changes"
   ],
   "note": "Proved for every codec named in the property except rle8_sh: its last run is copied byte for byte unless it is a run of the current run symbol, so a constant input does not get smaller at all (C48_sh_violated). C48_sh_partial is the bound with the length of the last run added. The constants are part of the theorems; they are not claimed to be the smallest."
  },
  {
   "property": "C49",
   "status": "partial",
   "theorems": [
    "Hrk.Fuzz.C49_predictable_uniform",
    "Hrk.Fuzz.C49_predictable_period",
    "Hrk.Fuzz.C49_random_violated",
    "Hrk.Fuzz.C49_random_partial"
   ],
   "note": "Uniform distribution over the period of 2^64 and the exact period are proved for the iterative mode. The generator of the random mode never notes that it was seeded, so every draw is the complement of the clocks at that moment (C49_random_violated); only the first draw is as intended (C49_random_partial)."
  },
  {
   "property": "C50",
   "status": "proved",
   "theorems": [
    "Hrk.C50_room",
    "Hrk.C50_rle8m_room",
    "Hrk.C50_refusal"
   ],
   "note": "All compressors of the codec table and rle8m. For rle8_mmtf128 the register that is never set (C29) has to hold the same value in both calls."
  },
  {
   "property": "C51",
   "status": "partial",
   "theorems": [
    "Hrk.C51_prefix_free",
    "Hrk.C51_injective_partial",
    "Hrk.C51_archive_partial"
   ],
   "note": "Prefix freedom for every codec of the table; injectivity and reading archives for every row except LowEntropy and LowEntropyShort, which C07_violated and C08_violated show to be wrong. rle8m does not ignore what follows its stream (C26_rle8m_violated)."
  },
  {
   "property": "C52",
   "status": "partial",
   "theorems": [
    "Hrk.C52_low_entropy_only_max",
    "Hrk.C52_rle8_single_stored",
    "Hrk.C52_rle8_single_partial",
    "Hrk.C52_rle8_single_violated",
    "Hrk.C52_single_short_stored",
    "Hrk.C52_single_short_partial",
    "Hrk.C52_single_short_violated"
   ],
   "note": "Proved for every symbol except 0 when the input does not begin with it, where the code is wrong (C52_rle8_single_violated, C52_single_short_violated). The low entropy variants and the relation between the stored symbol and the size are proved without exception."
  },
  {
   "property": "C53",
   "status": "partial",
   "theorems": [
    "Hrk.C53_threads_x86",
    "Hrk.C53_unordered_partial",
    "Hrk.C53_unordered_violated"
   ],
   "note": "Proved in full for x86 store buffers. Without any memory order proved for all codecs but rle8_packed_multi, whose output depends on AVX2 (C47) and hence on the race: C53_unordered_violated."
  },
  {
   "property": "C54",
   "status": "partial",
   "theorems": [
    "Hrk.Info.C54_value_partial",
    "Hrk.Info.C54_range_partial",
    "Hrk.Info.C54_full",
    "Hrk.Info.C54_symmetric",
    "Hrk.Info.C54_column_partial",
    "Hrk.Info.C54_constant_violated"
   ],
   "note": "Over exact real numbers instead of double. Fails for streams of equal bytes, where the function divides 0 by 0: C54_constant_violated."
  },
  {
   "property": "C55",
   "status": "partial",
   "theorems": [
    "Hrk.C55_exact",
    "Hrk.C55_sound_partial",
    "Hrk.C55_nothing_left",
    "Hrk.C55_destroyed",
    "Hrk.C55_all_or_nothing",
    "Hrk.C55_double_free_violated",
    "Hrk.C55_transfers_exact",
    "Hrk.C55_transfers_violated"
   ],
   "note": "C55_exact and C55_transfers_exact say exactly which histories go wrong. C55_double_free_violated: initialising again, with larger sizes, frees the list of platforms twice if the first allocation fails or no platform is found. C55_transfers_violated: if a driver call fails after the first transfer was started, rle8m_opencl_decompress returns while the transfer still reads the caller's buffer. Everything else is proved: C55_sound_partial, C55_nothing_left, C55_destroyed, C55_all_or_nothing."
  },
  {
   "property": "C56",
   "status": "partial",
   "theorems": [
    "Hrk.Fuzz.C56_goes_on",
    "Hrk.Fuzz.C56_defined",
    "Hrk.Fuzz.C56_passed",
    "Hrk.Fuzz.C56_reason",
    "Hrk.Fuzz.C56_caught_partial",
    "Hrk.Fuzz.C56_room",
    "Hrk.Fuzz.C56_missed_violated"
   ],
   "note": "C56_goes_on, C56_defined, C56_passed and C56_reason hold in full; C56_caught_partial: a failing codec is caught if the comparison sees the difference. C56_missed_violated: codecs that change the first byte of every input of more than 32 bytes run to the end (see C39)."
  },
  {
   "property": "C57",
   "status": "partial",
   "theorems": [
    "Hrk.Timing.C57_calls",
    "Hrk.Timing.C57_average",
    "Hrk.Timing.C57_maximum",
    "Hrk.Timing.C57_deviation_partial",
    "Hrk.Timing.C57_deviation_exact",
    "Hrk.Timing.C57_two_violated",
    "Hrk.Timing.C57_one",
    "Hrk.Timing.C57_inside",
    "Hrk.Timing.C57_deviation_violated"
   ],
   "note": "Over exact real numbers instead of double. The deviation columns leave out the first call and divide by two less than the number of calls: C57_deviation_violated; they are right only when the first call lies exactly one standard deviation from the mean (C57_deviation_exact), and with two calls they divide by 0 (C57_two_violated). Everything else is proved."
  },
  {
   "property": "C58",
   "status": "partial",
   "theorems": [
    "Hrk.C58_overlay",
    "Hrk.C58_rle8m_overlay",
    "Hrk.C58_mmtf128",
    "Hrk.C58_partial",
    "Hrk.C58_low_entropy_partial",
    "Hrk.C58_sh",
    "Hrk.C58_stale_violated",
    "Hrk.C58_rle8m_stale_violated"
   ],
   "note": "Proved for every byte string: the outcome, the returned size and the written bytes do not depend on the old contents of the buffer (C58_overlay, C58_rle8m_overlay). That everything below the returned size is written holds for rle8_mmtf128 (C58_mmtf128); for the others it holds if the stream stands for at least as many bytes as its header says (C58_partial, C58_low_entropy_partial, C58_sh), and fails otherwise (C58_stale_violated, C58_rle8m_stale_violated): the header's size is returned without a comparison with what was written."
  },
  {
   "property": "C59",
   "status": "proved",
   "theorems": [
    "Hrk.C59_table",
    "Hrk.C59_rle8m"
   ],
   "note": "The decoders are modelled a second time with every aligned load and store of the caller's buffers checked (Align.lean); the checked decoder is shown to be the decoder, for every stream, address and processor (C59_table, C59_rle8m). The models of the mmtf and bitpack transforms and of the fuzzer's comparison (C11, C30, C39) check the alignment themselves."
  },
  {
   "property": "C60",
   "status": "partial",
   "theorems": [
    "Hrk.C60_table",
    "Hrk.C60_records",
    "Hrk.C60_rle8m_partial",
    "Hrk.C60_rle8m_violated",
    "Hrk.C60_rle8m_linear_violated"
   ],
   "note": "Every decompressor of the table takes at most 18 steps per byte of the stream plus one per byte of the buffer plus 20, for all streams, sizes, addresses and processors (C60_table; sharper for the record codecs, C60_records). rle8m does not: it follows the section offsets in the stream without comparing them, so the same bytes can be decoded once per section; what holds is the product bound (C60_rle8m_partial), and the witnesses show that it is attained up to a constant (C60_rle8m_violated, C60_rle8m_linear_violated)."
  },
  {
   "property": "C61",
   "status": "partial",
   "theorems": [
    "Hrk.C61_multibyte_partial",
    "Hrk.C61_rle128_partial",
    "Hrk.C61_rle8_partial",
    "Hrk.C61_symlut_partial",
    "Hrk.C61_short_partial",
    "Hrk.C61_multibyte_violated",
    "Hrk.C61_rle128_violated",
    "Hrk.C61_rle8_violated"
   ],
   "note": "Proved up to 4294967264 bytes for the codecs with 32 bit literal counts and up to 2147483630 bytes for those with 31 bits (packed byte granular codecs and rle8 packed), where 2^31 bytes without runs are compressed without complaint and decompressed to 2^31 bytes of which only the first 128 were written (C61_*_violated). C14_roundtrip and C15_roundtrip cover every 32 bit size. Missing: the last 31 sizes."
  },
  {
   "property": "C62",
   "status": "proved",
   "theorems": [
    "Hrk.C62_table"
   ],
   "note": "At most 18 steps per input byte plus 3840, for every compressor of the table, all inputs, sizes and processors. Not counted: one pass that picks the symbol (single codecs) or counts the symbols (low entropy), and the copy of the literals behind the last run."
  },
  {
   "property": "C63",
   "status": "partial",
   "theorems": [
    "Hrk.C63_table_partial",
    "Hrk.C63_violated"
   ],
   "note": "Proved without exception for every codec of 8 bit symbols, the low entropy codecs, rle8_sh and rle8_mmtf128. The codecs of wider symbols read up to one symbol behind the input (C63_violated: exactly that much, for inputs without repetitions); C63_table_partial proves they never read more."
  },
  {
   "property": "C64",
   "status": "partial",
   "theorems": [
    "Hrk.C64_table_partial",
    "Hrk.C64_room",
    "Hrk.C64_short48_violated",
    "Hrk.C64_sh_violated",
    "Hrk.C64_mmtf128_violated"
   ],
   "note": "Proved for every row of the table but the two short 48 bit codecs without a table, rle8_sh and rle8_mmtf128, for which it is false (C64_short48_violated, C64_sh_violated, C64_mmtf128_violated). The short 48 bit codecs store at most one byte more; for all rows C64_room proves that nothing at or behind outSize is touched."
  },
  {
   "property": "C65",
   "status": "partial",
   "theorems": [
    "Hrk.C65_table_partial",
    "Hrk.C65_vec",
    "Hrk.C65_violated"
   ],
   "note": "False for every codec that copies literals in vectors (C65_violated: one byte of input, every processor). Proved is what suffices: one vector (16, 32 or 64 bytes, C65_vec) behind the stream, and nothing for rle8_sh, rle8_mmtf128 and the only_max low entropy codecs. One byte less than a vector is neither proved sufficient nor shown to fail. The rows LowEntropy and LowEntropyShort fail whatever follows (C37_low_entropy_violated)."
  },
  {
   "property": "C66",
   "status": "partial",
   "theorems": [
    "Hrk.Publish.C66_mmtf_partial",
    "Hrk.Publish.C66_mmtf_waits",
    "Hrk.Publish.C66_ordinary",
    "Hrk.Publish.C66_violated"
   ],
   "note": "False where the transform streams: aligned buffers, at least a block, SSE4.1 or AVX2 (C66_violated gives the execution for every such call: none of the whole blocks is visible). Proved for all other calls (C66_mmtf_partial), for all calls if the caller executes sfence or a locked instruction first (C66_mmtf_waits), and for whatever makes ordinary stores only (C66_ordinary), which is all the rest of the library except the aligned functions of bitpack.h."
  },
  {
   "property": "C67",
   "status": "proved",
   "theorems": [
    "Hrk.C67_mmtf",
    "Hrk.C67_mmtf_in_place",
    "Hrk.C67_bitmmtf",
    "Hrk.C67_bitmmtf_in_place"
   ],
   "note": "Examples beside the theorems show that an output that begins inside the input, behind its first byte, is wrong."
  },
  {
   "property": "C68",
   "status": "partial",
   "theorems": [
    "Hrk.C68_table",
    "Hrk.C68_roundtrip_partial",
    "Hrk.C68_only_max",
    "Hrk.C68_absent",
    "Hrk.C68_room",
    "Hrk.C68_room_violated",
    "Hrk.C68_room_violated_reached",
    "Hrk.C68_read_violated",
    "Hrk.C68_read_room",
    "Hrk.C68_violated"
   ],
   "note": "Restoring is proved for tables that leave at least one byte value unflagged (always so for only_max_frequency tables, and for data in which some byte value is absent). It is false of tables that flag all 256 values (C68_violated). compress_with_info accepts a buffer of inSize bytes and overruns it (C68_room_violated); twice inSize is proved to be enough. read_decompress_info does not respect inSize (C68_read_violated); 288 bytes are proved to be enough."
  },
  {
   "property": "C69",
   "status": "partial",
   "theorems": [
    "Hrk.Fuzz.C69_same_run",
    "Hrk.Fuzz.C69_file_partial",
    "Hrk.Fuzz.C69_file_violated",
    "Hrk.Fuzz.C69_same_check",
    "Hrk.Report.C69_equal",
    "Hrk.Report.C69_report",
    "Hrk.Report.C69_cases",
    "Hrk.Report.C69_rows",
    "Hrk.Report.C69_heading",
    "Hrk.Report.C69_digits",
    "Hrk.Report.C69_window"
   ],
   "note": "The report is proved for all buffers (C69_equal, C69_report, C69_rows). The file is proved to hold the failing input if the codec returned the right size (C69_file_partial); if a codec returns 0 or another size, the fuzzer stops and leaves the file empty (C69_file_violated)."
  },
  {
   "property": "C70",
   "status": "partial",
   "theorems": [
    "Hrk.C70_table_partial",
    "Hrk.C70_rle8m_partial",
    "Hrk.C70_header_violated",
    "Hrk.C70_rle8m_header_violated",
    "Hrk.C70_success_violated"
   ],
   "note": "Proved for every codec if at least the header is there (eight bytes, nine for rle8) (C70_table_partial, C70_rle8m_partial). With fewer bytes every decompressor reads the header behind them (C70_header_violated, C70_rle8m_header_violated); if zeros happen to follow the first four bytes, the decompressors that are neither short nor low entropy nor rle8_sh even return the size as if they had succeeded (C70_success_violated)."
  },
  {
   "property": "C71",
   "status": "partial",
   "theorems": [
    "Hrk.C71_library",
    "Hrk.C71_threads",
    "Hrk.C71_tool",
    "Hrk.C71_max_simd",
    "Hrk.C71_copy_width",
    "Hrk.C71_fuzz_violated",
    "Hrk.C71_fuzz_max_simd_violated"
   ],
   "note": "Proved for every call of the library (C71_library, C71_threads), and for the tool with and without --max-simd (C71_tool, C71_max_simd). The targets are those of the function attributes; that the machine saves the registers it reports is a hypothesis (false machines: C35). Not true of the fuzzer: MemoryEquals is compiled for AVX2 and fuzz_read_rand for AES, and both run whatever was detected or asked for (C71_fuzz_violated, C71_fuzz_max_simd_violated)."
  },
  {
   "property": "C72",
   "status": "partial",
   "theorems": [
    "Hrk.C72_mmtf_partial",
    "Hrk.C72_mmtf_accepts",
    "Hrk.C72_mmtf_null_violated",
    "Hrk.C72_bitmmtf",
    "Hrk.C72_mmtf128_sse2_violated"
   ],
   "note": "Sizes and missing SSE2 are refused by mmtf128 and mmtf256 (C72_mmtf_partial) and nothing else is (C72_mmtf_accepts); the bit transforms refuse NULL pointers too (C72_bitmmtf). mmtf128 and mmtf256 read and write through NULL pointers (C72_mmtf_null_violated). rle8_mmtf128 never asks for SSE2 (C72_mmtf128_sse2_violated)."
  },
  {
   "property": "C73",
   "status": "partial",
   "theorems": [
    "Hrk.C73_listed",
    "Hrk.C73_order",
    "Hrk.C73_rest",
    "Hrk.C73_flags_partial",
    "Hrk.C73_best_partial",
    "Hrk.C73_last_run_violated",
    "Hrk.C73_best_violated"
   ],
   "note": "List and order proved for all inputs and variants (C73_listed, C73_order, C73_rest), and exactly which values are flagged (C73_flags_partial, C73_best_partial), by the pieces the code counts. Two things of the English claim are false: the last run counts as one piece however long it is, so a value can be flagged whose runs are shorter than two bytes on average (C73_last_run_violated); the single symbol variant only considers values with an average of three bytes or more, so another value can save more (C73_best_violated: 59 bytes instead of 52)."
  },
  {
   "property": "C74",
   "status": "partial",
   "theorems": [
    "Hrk.C74_multibyte",
    "Hrk.C74_128",
    "Hrk.C74_symlut",
    "Hrk.C74_short",
    "Hrk.C74_rle8_partial",
    "Hrk.C74_rle8_packed_multi_violated"
   ],
   "note": "Proved for all inputs and processors for the 16 to 64 bit codecs (C74_multibyte), the 128 bit codecs (C74_128), the symbol-LUT codecs (C74_symlut), the short codecs, greedy and single ones included (C74_short), and rle8_multi, rle8_single and rle8_packed_single (C74_rle8_partial). False for rle8_packed_multi, which stores the symbol again with the runs its scalar code finds at the end of the input (C74_rle8_packed_multi_violated: a shorter stream with the same content)."
  },
  {
   "property": "C75",
   "status": "partial",
   "theorems": [
    "Hrk.C75_program_partial",
    "Hrk.C75_readme_partial",
    "Hrk.C75_packed_multi",
    "Hrk.C75_readme_violated",
    "Hrk.C75_larger_violated",
    "Hrk.C75_reads_violated"
   ],
   "note": "The program as printed restores all data of up to 27538 bytes (C75_readme_partial); with rle8_packed_multi data of every supported size (C75_packed_multi); with every codec of the table up to a size given for each, 2^30 for the plain and packed ones, provided that as many bytes as the type of a symbol may be read behind the data (C75_program_partial). False: the program as printed overflows its heap buffer for some data of every size from 125052 bytes on (C75_readme_violated), others at some size (C75_larger_violated), and with symbols of more than 8 bits it reads behind the data at every size (C75_reads_violated). Open: rle8_multi between 27539 and 125051 bytes (fails for some of these, C17_multi_violated)."
  },
  {
   "property": "C76",
   "status": "partial",
   "theorems": [
    "Hrk.C76_mmtf128_partial",
    "Hrk.C76_mmtf128_zeroed",
    "Hrk.C76_mmtf128_violated",
    "Hrk.C76_mmtf128_block_violated"
   ],
   "note": "Proved for all inputs and all garbage, except for the bits of the first copy section (C76_mmtf128_partial); for all sections if the register currentBitMask happens to be zero (C76_mmtf128_zeroed). The first section is stored with too many bits if the uninitialised register held ones (C76_mmtf128_violated). The bits are chosen per section, not per block of 16 bytes as the README can be read (C76_mmtf128_block_violated)."
  },
  {
   "property": "C77",
   "status": "partial",
   "theorems": [
    "Hrk.C77_multibyte",
    "Hrk.C77_128_partial",
    "Hrk.C77_symlut",
    "Hrk.C77_short",
    "Hrk.C77_rle8_single",
    "Hrk.C77_rle8_multi",
    "Hrk.C77_128_violated"
   ],
   "note": "Proved for all codecs of this kind; for those of 128 bit symbols only up to runs that end where exactly one symbol is left (C77_128_partial). There the property is false for all four (C77_128_violated): of 64 equal bytes the last 16 are stored as they are."
  },
  {
   "property": "C78",
   "status": "partial",
   "theorems": [
    "Hrk.C78_symlut_all_violated",
    "Hrk.C78_short_violated",
    "Hrk.C78_rle8_all_violated",
    "Hrk.C78_multibyte",
    "Hrk.C78_128",
    "Hrk.C78_symlut_partial",
    "Hrk.C78_symlut_wide",
    "Hrk.C78_short_partial",
    "Hrk.C78_short_two",
    "Hrk.C78_rle8_partial",
    "Hrk.C78_packed_multi",
    "Hrk.C78_rle8_violated",
    "Hrk.C78_symlut_violated"
   ],
   "note": "Proved for the multi-byte and 128 bit codecs, the table codecs of 48 and 64 bit symbols, the short codecs of 64 bit symbols (and 32 bit symbols counted as a whole) with the ordinary encoder, and rle8_packed_multi. All other codecs store some runs at a loss, but only far behind the previous run; the _partial theorems say how far and how much. It is false for rle8_multi, rle8_single, rle8_packed_single behind 255 literals (C78_rle8_violated: by exactly 1, 2, 4 bytes), for the table codecs of 24 bit symbols behind 126 or 62 literals (C78_symlut_violated), and for all remaining ones (C78_symlut_all_violated, C78_short_violated, from C18 and C19)."
  },
  {
   "property": "C79",
   "status": "proved",
   "theorems": [
    "Hrk.C79_mmtf_rank",
    "Hrk.C79_mmtf_zero",
    "Hrk.C79_mmtf_onto",
    "Hrk.C79_bitmmtf_onto",
    "Hrk.C79_bitmmtf_zero"
   ],
   "note": "All four transforms, both directions."
  },
  {
   "property": "C80",
   "status": "partial",
   "theorems": [
    "Hrk.C80_monotone",
    "Hrk.C80_session_partial",
    "Hrk.C80_extreme_partial",
    "Hrk.C80_mixed_partial",
    "Hrk.C80_file_partial",
    "Hrk.C80_large_violated"
   ],
   "note": "For every sequence of blocks each of which could be compressed by itself (C80_session_partial), for the extreme codecs with rle_compress_bounds up to the sizes of C75 (C80_extreme_partial, C80_file_partial), for all codecs with one byte more per 221 (C80_mixed_partial). Advertised sizes are monotone up to 1 GiB (C80_monotone); above, the buffer for the largest block is refused for every block (C80_large_violated). Missing: what C07, C08, C17 to C20, C63 and C65 show to fail for a single block."
  },
  {
   "property": "C81",
   "status": "partial",
   "theorems": [
    "Hrk.C81_chain_partial",
    "Hrk.C81_injective_partial",
    "Hrk.C81_total_partial"
   ],
   "note": "Every chain that succeeds is undone (C81_chain_partial) and is injective (C81_injective_partial); chains with buffers of the stated sizes succeed up to the sizes of C75 (C81_total_partial). Missing: the two low entropy codecs of C07 and C08, and larger data than the codecs can take with certainty."
  },
  {
   "property": "C82",
   "status": "partial",
   "theorems": [
    "Hrk.C82_same_partial",
    "Hrk.C82_rle8m_same",
    "Hrk.C82_again_partial",
    "Hrk.C82_behind_violated"
   ],
   "note": "Proved for all codecs of 8 bit symbols (rle8_packed_multi only if both processors have AVX2 or both do not), for rle8_sh and the low entropy codecs, and for rle8_mmtf128 with the same value in its uninitialised register; for the codecs of wider symbols if one symbol behind the file is the same both times (C82_same_partial, C82_again_partial). rle8m without exception (C82_rle8m_same). For each of the 99 compressors of wider symbols C82_behind_violated gives 16 bytes with two different streams on every processor, depending on what lies behind them."
  }
 ]
}