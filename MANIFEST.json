{
 "claims": [
  {
   "property": "C01",
   "status": "proved",
   "theorems": [
    "Verif.Props.C01_duval_factorizes",
    "Verif.Props.C01_duval_empty"
   ],
   "note": ""
  },
  {
   "property": "C02",
   "status": "proved",
   "theorems": [
    "Verif.Props.C02_duval_unique"
   ],
   "note": ""
  },
  {
   "property": "C03",
   "status": "proved",
   "theorems": [
    "Verif.Props.C03_duval_eq_isa"
   ],
   "note": "texts of at most 2^31 bytes (i32 entries)"
  },
  {
   "property": "C04",
   "status": "proved",
   "theorems": [
    "Verif.Props.C04_lyndon_conjugate",
    "Verif.Props.C04_lyndon_conjugate_empty"
   ],
   "note": ""
  },
  {
   "property": "C05",
   "status": "proved",
   "theorems": [
    "Verif.Props.C05_border_array"
   ],
   "note": ""
  },
  {
   "property": "C06",
   "status": "proved",
   "theorems": [
    "Verif.Props.C06_smallest_period"
   ],
   "note": ""
  },
  {
   "property": "C07",
   "status": "proved",
   "theorems": [
    "Verif.Props.C07_is_primitive"
   ],
   "note": ""
  },
  {
   "property": "C08",
   "status": "proved",
   "theorems": [
    "Verif.Props.C08_suffixarray_naive"
   ],
   "note": ""
  },
  {
   "property": "C09",
   "status": "proved",
   "theorems": [
    "Verif.Props.C09_inverse_permutation",
    "Verif.Props.C09_compute_phi",
    "Verif.Props.C09_compute_phi_empty"
   ],
   "note": ""
  },
  {
   "property": "C10",
   "status": "proved",
   "theorems": [
    "Verif.Props.C10_lcp"
   ],
   "note": "texts shorter than 2^32 bytes (u32 entries)"
  },
  {
   "property": "C11",
   "status": "proved",
   "theorems": [
    "Verif.Props.C11_compute_psv",
    "Verif.Props.C11_compute_nsv",
    "Verif.Props.C11_empty"
   ],
   "note": ""
  },
  {
   "property": "C12",
   "status": "proved",
   "theorems": [
    "Verif.Props.C12_bwt_sa_eq_matrix",
    "Verif.Props.C12_bwt_sa_panics"
   ],
   "note": "texts shorter than 2^31 bytes; cdivsufsort by contract"
  },
  {
   "property": "C13",
   "status": "proved",
   "theorems": [
    "Verif.Props.C13_matrix_bwt_conjugacy"
   ],
   "note": ""
  },
  {
   "property": "C14",
   "status": "proved",
   "theorems": [
    "Verif.Props.C14_sentinel_bwt_injective"
   ],
   "note": "texts shorter than 2^31-1 bytes; cdivsufsort by contract"
  },
  {
   "property": "C15",
   "status": "proved",
   "theorems": [
    "Verif.Props.C15_fast_matrix_eq_naive",
    "Verif.Props.C15_fast_matrix_zero_panics",
    "Verif.Props.C15_fast_matrix_empty"
   ],
   "note": "texts shorter than 2^31-1 bytes; cdivsufsort by contract"
  },
  {
   "property": "C16",
   "status": "partial",
   "theorems": [
    "Verif.Props.C16_tools_partial",
    "Verif.Props.C16_matrix_dollar_panics",
    "Verif.Props.C16_claim_false",
    "Verif.Props.C16_nodollar_sa_differs",
    "Verif.Props.C16_nodollar_characterized"
   ],
   "note": "The claim is false of the code (refuted by C16_claim_false: --use-matrix with the dollar panics from 99 bytes on; C16_nodollar_sa_differs: --no-dollar without --use-matrix is not the matrix BWT of bab). Proved for the remaining flag combinations; C16_nodollar_characterized says what --no-dollar without --use-matrix writes for every input."
  },
  {
   "property": "C17",
   "status": "proved",
   "theorems": [
    "Verif.Props.C17_bbwt_rearranges",
    "Verif.Props.C17_bbwt_bijective",
    "Verif.Props.C17_bbwt_injective",
    "Verif.Props.C17_bbwt_empty",
    "Verif.Props.C17_bbwt_table"
   ],
   "note": ""
  },
  {
   "property": "C18",
   "status": "proved",
   "theorems": [
    "Verif.Props.C18_bbwt_lyndon"
   ],
   "note": ""
  },
  {
   "property": "C19",
   "status": "proved",
   "theorems": [
    "Verif.Props.C19_lz77_decodes"
   ],
   "note": ""
  },
  {
   "property": "C20",
   "status": "proved",
   "theorems": [
    "Verif.Props.C20_lz77_greedy"
   ],
   "note": ""
  },
  {
   "property": "C21",
   "status": "proved",
   "theorems": [
    "Verif.Props.C21_lz77_minimal"
   ],
   "note": ""
  },
  {
   "property": "C22",
   "status": "partial",
   "theorems": [
    "Verif.Props.C22_lexparse_partial",
    "Verif.Props.C22_lexparse_injective",
    "Verif.Props.C22_lexparse_unary_refuted"
   ],
   "note": "The claim is false for one-letter texts (refuted by C22_lexparse_unary_refuted); proved for every text with two different letters."
  },
  {
   "property": "C23",
   "status": "proved",
   "theorems": [
    "Verif.Props.C23_get_mus_exact"
   ],
   "note": ""
  },
  {
   "property": "C24",
   "status": "partial",
   "theorems": [
    "Verif.Props.C24_mus_tool_partial",
    "Verif.Props.C24_mus_tool_refuted"
   ],
   "note": "The claim is false of the code: main appends no sentinel (refuted by C24_mus_tool_refuted); the exact behaviour is proved."
  },
  {
   "property": "C25",
   "status": "proved",
   "theorems": [
    "Verif.Props.C25_attractor_exact",
    "Verif.Props.C25_attractor_panics"
   ],
   "note": ""
  },
  {
   "property": "C26",
   "status": "proved",
   "theorems": [
    "Verif.Props.C26_zero_order",
    "Verif.Props.C26_kth_order",
    "Verif.Props.C26_sentinel_alone_panics",
    "Verif.Props.C26_rejects"
   ],
   "note": "f64 as reals; text non-empty before the sentinel (the sentinel alone with order 1 underflows, proved)"
  },
  {
   "property": "C27",
   "status": "proved",
   "theorems": [
    "Verif.Props.C27_tools_agree",
    "Verif.Props.C27_short_panics",
    "Verif.Props.C27_domain",
    "Verif.Props.C27_eight"
   ],
   "note": "f64 as reals; HashMap iteration order irrelevant for the real sum"
  },
  {
   "property": "C28",
   "status": "proved",
   "theorems": [
    "Verif.Props.C28_number_of_runs",
    "Verif.Props.runs_exist_unique"
   ],
   "note": ""
  },
  {
   "property": "C29",
   "status": "partial",
   "theorems": [
    "Verif.Props.C29_count_sigma_partial",
    "Verif.Props.C29_refuted",
    "Verif.Props.C29_release_partial",
    "Verif.Props.C29_release_covers"
   ],
   "note": "false for texts with all 256 byte values: u8 counter overflow (refuted); proved for fewer than 256 distinct bytes, both overflow modes; exact value for all others"
  },
  {
   "property": "C30",
   "status": "partial",
   "theorems": [
    "Verif.Props.C30_mtf_lossless_partial",
    "Verif.Props.C30_refuted"
   ],
   "note": "false for inputs containing byte 255 (table has 255 entries; refuted); proved for inputs without byte 255"
  },
  {
   "property": "C31",
   "status": "proved",
   "theorems": [
    "Verif.Props.C31_rle",
    "Verif.Props.C31_release_lossy"
   ],
   "note": "overflow-checked build; the release build is lossy (proved)"
  },
  {
   "property": "C32",
   "status": "proved",
   "theorems": [
    "Verif.Props.C32_rle_text",
    "Verif.Props.C32_rle_text_injective"
   ],
   "note": ""
  },
  {
   "property": "C33",
   "status": "partial",
   "theorems": [
    "Verif.Props.C33_refuted",
    "Verif.Props.C33_rle_zero_partial",
    "Verif.Props.C33_exact_partial",
    "Verif.Props.C33_covers_partial",
    "Verif.Props.C33_long_run_partial",
    "Verif.Props.C33_collisions_partial"
   ],
   "note": "false: the letter after a run of 0 is dropped (refuted); proved for texts whose 0s form a final run of at most 255; exact output for all texts without 256 consecutive zeros, panic of the debug build for the others, and exactly which inputs collide"
  },
  {
   "property": "C34",
   "status": "proved",
   "theorems": [
    "Verif.Props.C34_escape_roundtrip",
    "Verif.Props.C34_duplicate_to_lossy",
    "Verif.Props.C34_refused"
   ],
   "note": ""
  },
  {
   "property": "C35",
   "status": "partial",
   "theorems": [
    "Verif.Props.C35_refuted",
    "Verif.Props.C35_escape_prefix_partial"
   ],
   "note": "false: default prefix length 0 writes nothing (refuted); proved for an explicit prefix length"
  },
  {
   "property": "C53",
   "status": "proved",
   "theorems": [
    "Verif.Props.C53_file_prefix",
    "Verif.Props.C53_stdin_prefix",
    "Verif.Props.C53_dispatch"
   ],
   "note": ""
  },
  {
   "property": "C54",
   "status": "proved",
   "theorems": [
    "Verif.Props.C54_reverse"
   ],
   "note": ""
  },
  {
   "property": "C36",
   "status": "proved",
   "theorems": [
    "Verif.Props.C36_lyndon_words",
    "Verif.Props.C36_lyndonwords_tool"
   ],
   "note": "generator and the lyndonwords tool"
  },
  {
   "property": "C37",
   "status": "partial",
   "theorems": [
    "Verif.Props.C37_binary_strings_partial",
    "Verif.Props.C37_refuted",
    "Verif.Props.C37_exact_partial",
    "Verif.Props.C37_last_missing_refuted",
    "Verif.Props.C37_limit"
   ],
   "note": "exact result of every call; all strings once in the first 2^len calls; order is that of reversed strings and the generator does not end (refuted)"
  },
  {
   "property": "C38",
   "status": "proved",
   "theorems": [
    "Verif.Props.C38_conjugates"
   ],
   "note": ""
  },
  {
   "property": "C39",
   "status": "proved",
   "theorems": [
    "Verif.Props.C39_test_strings"
   ],
   "note": ""
  },
  {
   "property": "C40",
   "status": "proved",
   "theorems": [
    "Verif.Props.C40_enumerate",
    "Verif.Props.C40_invalid"
   ],
   "note": ""
  },
  {
   "property": "C41",
   "status": "proved",
   "theorems": [
    "Verif.Props.C41_kmer_generator",
    "Verif.Props.C41_constants",
    "Verif.Props.C41_limits"
   ],
   "note": ""
  },
  {
   "property": "C56",
   "status": "proved",
   "theorems": [
    "Verif.Props.C56_randomstring"
   ],
   "note": "random source = list of samples"
  },
  {
   "property": "C60",
   "status": "proved",
   "theorems": [
    "Verif.Props.C60_bit_size"
   ],
   "note": ""
  },
  {
   "property": "C43",
   "status": "proved",
   "theorems": [
    "Verif.Props.C43_thuemorse_letters",
    "Verif.Props.C43_thuemorse_morphism",
    "Verif.Props.C43_thuemorse_complement",
    "Verif.Props.C43_limit"
   ],
   "note": "k <= 62; C43_limit: panics from k = 63 on."
  },
  {
   "property": "C45",
   "status": "proved",
   "theorems": [
    "Verif.Props.C45_iterate2",
    "Verif.Props.C45_general",
    "Verif.Props.C45_with_start",
    "Verif.Props.C45_limit",
    "Verif.Props.C45_period_doubling"
   ],
   "note": "every 2-uniform / prolongable non-erasing morphism; the allocation must be possible."
  },
  {
   "property": "C46",
   "status": "proved",
   "theorems": [
    "Verif.Props.C46_quaternary",
    "Verif.Props.C46_paperfolding",
    "Verif.Props.C46_fold"
   ],
   "note": "orders up to 62 (quaternary) and 61 (binary); larger orders cannot be allocated."
  },
  {
   "property": "C42",
   "status": "proved",
   "theorems": [
    "Verif.Props.C42_fibonacci_number",
    "Verif.Props.C42_recurrence",
    "Verif.Props.C42_fibonacci_word",
    "Verif.Props.C42_binet",
    "Verif.Props.C42_fibonacci_word_exact",
    "Verif.Props.C42_fibonacci_word_rounded",
    "Verif.Props.C42_agree"
   ],
   "note": "words for k <= 90 (buffer below 2^63), numbers for k <= 91; the floating-point estimate is a parameter with an explicit accuracy hypothesis, which C99 proves for f64."
  },
  {
   "property": "C44",
   "status": "proved",
   "theorems": [
    "Verif.Props.C44_kolakoski",
    "Verif.Props.C44_self_reading",
    "Verif.Props.C44_length",
    "Verif.Props.C44_limit"
   ],
   "note": "orders up to 60; larger orders panic (C44_limit)."
  },
  {
   "property": "C50",
   "status": "proved",
   "theorems": [
    "Verif.Props.C50_tribonacci_number",
    "Verif.Props.C50_tribonacci_word"
   ],
   "note": "numbers for k <= 72, words for k <= 71 (allocation limit)."
  },
  {
   "property": "C51",
   "status": "partial",
   "theorems": [
    "Verif.Props.C51_vtm_word_partial",
    "Verif.Props.C51_refuted"
   ],
   "note": "false for k >= 30: the size hint overflows 32 bits and the function panics (C51_refuted); proved for k <= 29."
  },
  {
   "property": "C52",
   "status": "proved",
   "theorems": [
    "Verif.Props.C52_lyndon_factors",
    "Verif.Props.C52_kth_factor",
    "Verif.Props.C52_limit"
   ],
   "note": "orders up to 29, the size hint's 32-bit limit."
  },
  {
   "property": "C47",
   "status": "partial",
   "theorems": [
    "Verif.Props.C47_binary_debruijn_partial",
    "Verif.Props.C47_by_length_partial",
    "Verif.Props.C47_small_partial",
    "Verif.Props.C47_refuted",
    "Verif.Props.C47_even_orders_refuted"
   ],
   "note": "false from k = 4 on (C47_refuted): is_necklace accepts prenecklaces. Proved for every k: termination, letters, length bounds, no window occurs twice; exact for k <= 3; refuted for k = 4 and for every even k >= 4 (C47_even_orders_refuted)."
  },
  {
   "property": "C48",
   "status": "partial",
   "theorems": [
    "Verif.Props.C48_is_necklace_partial",
    "Verif.Props.C48_accepts_necklaces_partial",
    "Verif.Props.C48_refuted"
   ],
   "note": "false: aba is accepted. Proved: exact characterization (prenecklaces), and every necklace is accepted."
  },
  {
   "property": "C49",
   "status": "partial",
   "theorems": [
    "Verif.Props.C49_power2_partial",
    "Verif.Props.C49_refuted",
    "Verif.Props.C49_limit"
   ],
   "note": "false for the last symbol of every order (byte 0 instead of b); all other symbols proved."
  },
  {
   "property": "C55",
   "status": "proved",
   "theorems": [
    "Verif.Props.C55_lyndon_report",
    "Verif.Props.C55_dropped",
    "Verif.Props.C55_empty"
   ],
   "note": "the report file, byte for byte; the factor left out is the single byte 0"
  },
  {
   "property": "C59",
   "status": "partial",
   "theorems": [
    "Verif.Props.C59_distinct_partial",
    "Verif.Props.C59_refuted"
   ],
   "note": "exact value for every text: one too few exactly when the first two factors have equal length and differ in the last letter only; refuted on ba"
  },
  {
   "property": "C57",
   "status": "proved",
   "theorems": [
    "Verif.Props.C57_schedule_independent",
    "Verif.Props.C57_same_as_sequential",
    "Verif.Props.C57_no_panic",
    "Verif.Props.C57_no_deadlock",
    "Verif.Props.C57_terminates",
    "Verif.Props.C57_finishes"
   ],
   "note": "interleaving semantics for any number of workers; final table = counts of the binary Lyndon words; no panic, no deadlock, termination"
  },
  {
   "property": "C58",
   "status": "partial",
   "theorems": [
    "Verif.Props.C58_lost_update_refuted",
    "Verif.Props.C58_deadlock_refuted",
    "Verif.Props.C58_deadlock_final",
    "Verif.Props.C58_records_genuine_partial",
    "Verif.Props.C58_panic_only_overflow_partial",
    "Verif.Props.C58_overflow_refuted",
    "Verif.Props.C58_deadlock_any_policy_partial",
    "Verif.Props.C58_deadlock_only_at_report_partial",
    "Verif.Props.C58_single_worker_partial",
    "Verif.Props.C58_single_worker_runs",
    "Verif.Props.C58_first_best_partial",
    "Verif.Props.C58_never_finishes"
   ],
   "note": "The claim is false of the code: the record can get worse (lost update between releasing the read locks and taking the write locks) and the workers can deadlock (num/total taken in opposite orders); both are proved for the code's four workers. Proved for every interleaving: recorded entries are genuine, panics come only from i32 counter overflow, deadlocks occur (under any RwLock policy) only while the total is a multiple of 10000; for one worker the full claim. Also: no interleaving can finish (the i32 counters overflow first)."
  },
  {
   "property": "C64",
   "status": "proved",
   "theorems": [
    "Verif.Props.C64_fibonacci_attractor",
    "Verif.Props.C64_test_holds"
   ],
   "note": "word-level statement for every order >= 2; through the modelled functions for 3 <= i <= 44 (beyond, the word exceeds the 2^31-1 bytes of the suffix sorter)"
  },
  {
   "property": "C61",
   "status": "proved",
   "theorems": [
    "Verif.Props.C61_even_two_runs",
    "Verif.Props.C61_odd_four_runs",
    "Verif.Props.C61_even_all_orders"
   ],
   "note": "through the modelled functions for orders up to 44 (2^31-1 byte limit of the suffix sorter), about the words for every order"
  },
  {
   "property": "C62",
   "status": "proved",
   "theorems": [
    "Verif.Props.C62_fibonacci_mus",
    "Verif.Props.C62_test_holds"
   ],
   "note": "word-level statement for every order; through the modelled functions for orders up to 44"
  },
  {
   "property": "C63",
   "status": "proved",
   "theorems": [
    "Verif.Props.C63_period_doubling_attractor",
    "Verif.Props.C63_test_holds"
   ],
   "note": "word-level statement for every order >= 3; through the modelled functions for i <= 31 (2^31-1 byte limit of the suffix sorter)"
  },
  {
   "property": "C65",
   "status": "proved",
   "theorems": [
    "Verif.Props.C65_parse_ends_attractor",
    "Verif.Props.C65_lz77_ends_accepted"
   ],
   "note": ""
  },
  {
   "property": "C66",
   "status": "proved",
   "theorems": [
    "Verif.Props.C66_bbwt_necklace",
    "Verif.Props.C66_sa_necklace",
    "Verif.Props.C66_lyndon_conjugate_bwts"
   ],
   "note": "The TODO at the end of unfinished/parallel.rs holds for every zero-free text."
  },
  {
   "property": "C67",
   "status": "proved",
   "theorems": [
    "Verif.Props.C67_mtf_files",
    "Verif.Props.C67_rle_files",
    "Verif.Props.C67_rle_human",
    "Verif.Props.C67_reverse_files",
    "Verif.Props.C67_escape_files",
    "Verif.Props.C67_bwt_files",
    "Verif.Props.C67_pipes",
    "Verif.Props.C67_uncreatable_output"
   ],
   "note": ""
  },
  {
   "property": "C68",
   "status": "partial",
   "theorems": [
    "Verif.Props.C68_inplace_partial",
    "Verif.Props.C68_bwt_failure_harmless",
    "Verif.Props.C68_inplace_refuted",
    "Verif.Props.C68_failure_harmless_refuted",
    "Verif.Props.C68_refused_table_empties"
   ],
   "note": "Proved for bwt. False of mtf, rle, reverse and escape: in place they succeed and leave an empty file (C68_inplace_refuted); a missing input or a too large order empties the output file (C68_failure_harmless_refuted)."
  },
  {
   "property": "C69",
   "status": "proved",
   "theorems": [
    "Verif.Props.C69_word_tool_morphic",
    "Verif.Props.C69_word_tool_other"
   ],
   "note": "Within the limits of C42-C52; de Bruijn words up to order 3 (see C47), powers of two without the last letter (see C49)."
  },
  {
   "property": "C70",
   "status": "proved",
   "theorems": [
    "Verif.Props.C70_exit_status"
   ],
   "note": ""
  },
  {
   "property": "C71",
   "status": "proved",
   "theorems": [
    "Verif.Props.C71_count_sigma",
    "Verif.Props.C71_count_runs",
    "Verif.Props.C71_entropy"
   ],
   "note": ""
  },
  {
   "property": "C72",
   "status": "proved",
   "theorems": [
    "Verif.Props.C72_pipeline"
   ],
   "note": ""
  },
  {
   "property": "C73",
   "status": "proved",
   "theorems": [
    "Verif.Props.C73_count_z_file",
    "Verif.Props.C73_count_z_decodable",
    "Verif.Props.C73_without_file",
    "Verif.Props.C73_count_lexparse_file"
   ],
   "note": "Factor files written by count_z and count_lexparse; one-letter texts under lexparse are excluded, see C22."
  },
  {
   "property": "C74",
   "status": "partial",
   "theorems": [
    "Verif.Props.C74_readme_pipeline_partial",
    "Verif.Props.C74_readme_refuted"
   ],
   "note": "Holds when -p covers the input; the command exactly as printed in the README (prefix length 0) always makes count_r report length 1 and one run."
  },
  {
   "property": "C75",
   "status": "proved",
   "theorems": [
    "Verif.Props.C75_probe_output"
   ],
   "note": "for every length bound (the code uses 16)"
  },
  {
   "property": "C76",
   "status": "proved",
   "theorems": [
    "Verif.Props.C76_enumerate_lexparse"
   ],
   "note": "for every alphabet size up to 26 and length (the code uses 2 and 32); itertools permutations by contract"
  },
  {
   "property": "C77",
   "status": "proved",
   "theorems": [
    "Verif.Props.C77_report_determines_text",
    "Verif.Props.C77_files"
   ],
   "note": ""
  },
  {
   "property": "C78",
   "status": "partial",
   "theorems": [
    "Verif.Props.C78_length_partial",
    "Verif.Props.C78_length_refuted"
   ],
   "note": "False for the default prefix length: 0 is printed."
  },
  {
   "property": "C79",
   "status": "proved",
   "theorems": [
    "Verif.Props.C79_thuemorse_overlap_free",
    "Verif.Props.C79_thuemorse_cube_free"
   ],
   "note": "all orders for which the function does not panic"
  },
  {
   "property": "C80",
   "status": "proved",
   "theorems": [
    "Verif.Props.C80_vtm_square_free",
    "Verif.Props.C80_vtm_letters"
   ],
   "note": "orders up to 29; larger orders panic (C51_refuted)"
  },
  {
   "property": "C81",
   "status": "proved",
   "theorems": [
    "Verif.Props.C81_attractor_bounds_substrings",
    "Verif.Props.C81_lz77_bounds_substrings",
    "Verif.Props.C81_sigma_le_z"
   ],
   "note": ""
  },
  {
   "property": "C82",
   "status": "proved",
   "theorems": [
    "Verif.Props.C82_run_borders_accepted",
    "Verif.Props.C82_runs_bound_substrings"
   ],
   "note": ""
  },
  {
   "property": "C83",
   "status": "proved",
   "theorems": [
    "Verif.Props.C83_reported_substrings",
    "Verif.Props.C83_panics",
    "Verif.Props.C83_output"
   ],
   "note": ""
  },
  {
   "property": "C84",
   "status": "proved",
   "theorems": [
    "Verif.Props.C84_zero_order_range",
    "Verif.Props.C84_at_most_eight",
    "Verif.Props.C84_rearranged",
    "Verif.Props.C84_decreasing",
    "Verif.Props.C84_zero_iff"
   ],
   "note": "Concavity of the logarithm (log-sum inequality); f64 modelled by the reals."
  },
  {
   "property": "C85",
   "status": "proved",
   "theorems": [
    "Verif.Props.C85_revert_iff",
    "Verif.Props.C85_revert_fails",
    "Verif.Props.C85_revert_then_escape"
   ],
   "note": "Exact domain and result of the reverting direction."
  },
  {
   "property": "C86",
   "status": "proved",
   "theorems": [
    "Verif.Props.C86_lexparse_le_runs"
   ],
   "note": "Irreducible positions are run starts; chains of reducible positions cannot end a factor."
  },
  {
   "property": "C87",
   "status": "proved",
   "theorems": [
    "Verif.Props.C87_lexparse_ends_accepted"
   ],
   "note": "Copies go to lexicographically smaller suffixes; induction on the rank."
  },
  {
   "property": "C88",
   "status": "proved",
   "theorems": [
    "Verif.Props.C88_deterministic",
    "Verif.Props.C88_unary",
    "Verif.Props.C88_unary_kmer",
    "Verif.Props.C88_alternating",
    "Verif.Props.C88_long_order"
   ],
   "note": "closed forms for all lengths and orders (f64 modelled by the reals)"
  },
  {
   "property": "C89",
   "status": "partial",
   "theorems": [
    "Verif.Props.C89_count_sigma_partial",
    "Verif.Props.C89_count_r_partial",
    "Verif.Props.C89_count_z_partial",
    "Verif.Props.C89_count_lexparse_partial",
    "Verif.Props.C89_lyndonfactorization_partial",
    "Verif.Props.C89_entropy_partial",
    "Verif.Props.C89_mus_refuted",
    "Verif.Props.C89_name_refuted"
   ],
   "note": "proved for file names without blanks and all tools but mus; false for names with blanks (C89_name_refuted) and for mus, whose list contains blanks (C89_mus_refuted)"
  },
  {
   "property": "C90",
   "status": "partial",
   "theorems": [
    "Verif.Props.C90_row_partial",
    "Verif.Props.C90_columns_refuted",
    "Verif.Props.C90_name_refuted"
   ],
   "note": "the cells are the exact values for zero-free non-empty files with a name without blanks, but the columns z and r are swapped against the header (C90_columns_refuted) and names with blanks can forge a value (C90_name_refuted)"
  },
  {
   "property": "C91",
   "status": "proved",
   "theorems": [
    "Verif.Props.C91_gen_artificial",
    "Verif.Props.C91_unwritable",
    "Verif.Props.C69_stdout"
   ],
   "note": "210 files named by two-digit order; contents by the specifications of C42-C51."
  },
  {
   "property": "C92",
   "status": "proved",
   "theorems": [
    "Verif.Props.C92_printed_table"
   ],
   "note": "Composition with C57."
  },
  {
   "property": "C93",
   "status": "proved",
   "theorems": [
    "Verif.Props.C93_worker_lines",
    "Verif.Props.C93_schedule_independent"
   ],
   "note": ""
  },
  {
   "property": "C94",
   "status": "partial",
   "theorems": [
    "Verif.Props.C94_reports_partial",
    "Verif.Props.C94_single_worker_partial",
    "Verif.Props.C94_label_refuted",
    "Verif.Props.C94_missed_refuted",
    "Verif.Props.C94_report_happens"
   ],
   "note": "Claim false of the code: label length=l is length l+1, and a report can be skipped with >= 2 workers (both refuted by reachable runs). Proved for every interleaving: complete, non-interleaved reports at multiples of 10000 with non-decreasing totals, sums and balance of the counts, genuine texts; for one worker exactly one report per multiple."
  },
  {
   "property": "C95",
   "status": "proved",
   "theorems": [
    "Verif.Props.C95_generator",
    "Verif.Props.C95_tool",
    "Verif.Props.C95_parallel"
   ],
   "note": "Counting identity and its Moebius inversion for the generator, the tool and the parallel program."
  },
  {
   "property": "C96",
   "status": "proved",
   "theorems": [
    "Verif.Props.C96_inverse_permutation",
    "Verif.Props.C96_compute_phi",
    "Verif.Props.C96_compute_lcp",
    "Verif.Props.C96_compute_plcp",
    "Verif.Props.C96_bwt_from_sa",
    "Verif.Props.C96_smallest_period",
    "Verif.Props.C96_isa_factorization",
    "Verif.Props.C96_texts",
    "Verif.Props.C96_byte_texts"
   ],
   "note": "For psv/nsv texts shorter than 2^32 letters; for the two suffix-sorting transforms the sorter meets its contract and the text has fewer than 2^31-1 bytes. A negative i32 entry of phi, which becomes a huge index by sign extension, is not modelled."
  },
  {
   "property": "C97",
   "status": "proved",
   "theorems": [
    "Verif.Props.C97_duval",
    "Verif.Props.C97_border_array",
    "Verif.Props.C97_conjugate_primitive",
    "Verif.Props.C97_plcp",
    "Verif.Props.C97_smaller_values"
   ],
   "note": "The counted programs (Model/Cost) repeat the model with a counter; forgetting the counter gives the model functions (duvalC_erase etc. of Lemmas/Cost)."
  },
  {
   "property": "C98",
   "status": "proved",
   "theorems": [
    "Verif.Props.C98_binary64",
    "Verif.Props.C98_zero_order",
    "Verif.Props.C98_kth_order",
    "Verif.Props.C98_kmer",
    "Verif.Props.C98_zero_order_f64",
    "Verif.Props.C98_kth_order_f64",
    "Verif.Props.C98_kmer_f64",
    "Verif.Props.C98_tools_agree_f64",
    "Verif.Props.C98_unary_f64"
   ],
   "note": "rounding modelled by the standard model with underflow and overflow thresholds, which is proved for every rounding to a nearest f64 number; the accuracy of the C library's log2 (2^-52) is a hypothesis; printing of the decimal digits is not modelled"
  },
  {
   "property": "C99",
   "status": "proved",
   "theorems": [
    "Verif.Props.C99_fibonacci_estimate",
    "Verif.Props.C99_fibonacci_word",
    "Verif.Props.C99_kolakoski_estimate"
   ],
   "note": "powi modelled as the run-time function __powidf2; Rust leaves its precision unspecified"
  },
  {
   "property": "C100",
   "status": "proved",
   "theorems": [
    "Verif.Props.C100_command_lines",
    "Verif.Props.C100_unambiguous",
    "Verif.Props.C100_exit_status",
    "Verif.Props.C100_help",
    "Verif.Props.C100_rejected_no_effect",
    "Verif.Props.C100_required",
    "Verif.Props.C100_options",
    "Verif.Props.C100_known_letter"
   ],
   "note": "Spec.Cli.Line is the grammar; iff for every list of words; clap itself is modelled from its documentation"
  },
  {
   "property": "C101",
   "status": "proved",
   "theorems": [
    "Verif.Props.C101_order",
    "Verif.Props.C101_fields"
   ],
   "note": "all seventeen commands of the list commands; any two accepted lines with permuted settings"
  },
  {
   "property": "C102",
   "status": "proved",
   "theorems": [
    "Verif.Props.C102_reverse",
    "Verif.Props.C102_bwt",
    "Verif.Props.C102_mtf",
    "Verif.Props.C102_attractor",
    "Verif.Props.C102_status_two"
   ],
   "note": "from the words of the command line to files and exit status"
  },
  {
   "property": "C103",
   "status": "partial",
   "theorems": [
    "Verif.Props.C103_script_lines_accepted",
    "Verif.Props.C103_script_lines_run",
    "Verif.Props.C103_readme_examples",
    "Verif.Props.C103_infilename_accepted",
    "Verif.Props.C103_escape_lists",
    "Verif.Props.C103_stats_script_refuted",
    "Verif.Props.C103_readme_file_refuted",
    "Verif.Props.C103_readme_names_refuted",
    "Verif.Props.C103_escape_commas_refuted"
   ],
   "note": "gen_artificial.sh and two README examples work; compute_stats.sh, count_sigma --file, four word names and comma separated lists are refuted for all parameters"
  },
  {
   "property": "C104",
   "status": "partial",
   "theorems": [
    "Verif.Props.C104_rle_release_partial",
    "Verif.Props.C104_onlyzero_needs_long",
    "Verif.Props.C104_rle_files_partial",
    "Verif.Props.C104_rle_human_partial",
    "Verif.Props.C104_rle_onlyzero_partial",
    "Verif.Props.C104_rle_debug_refuted"
   ],
   "note": "the property is false: debug builds always panic, in release builds -o never selects onlyzero; the release grammar is exact"
  },
  {
   "property": "C105",
   "status": "proved",
   "theorems": [
    "Verif.Props.C105_enumerate_lines",
    "Verif.Props.C105_enumerate_rejected",
    "Verif.Props.C105_enumerate_command"
   ],
   "note": "iff for every list of words"
  },
  {
   "property": "C106",
   "status": "proved",
   "theorems": [
    "Verif.Props.C106_release_rle",
    "Verif.Props.C106_release_text",
    "Verif.Props.C106_builds_agree"
   ],
   "note": "exact for every stream"
  },
  {
   "property": "C107",
   "status": "proved",
   "theorems": [
    "Verif.Props.C107_fibonacci",
    "Verif.Props.C107_thuemorse",
    "Verif.Props.C107_period_doubling",
    "Verif.Props.C107_vtm",
    "Verif.Props.C107_tribonacci",
    "Verif.Props.C107_quaternary_paperfolding",
    "Verif.Props.C107_paperfolding",
    "Verif.Props.C107_count_z",
    "Verif.Props.C107_commands"
   ],
   "note": "lower bound by disjoint substrings without earlier occurrence, upper bound by explicit parses, both for every order"
  },
  {
   "property": "C108",
   "status": "proved",
   "theorems": [
    "Verif.Props.C108_count_runs",
    "Verif.Props.C108_count_sigma",
    "Verif.Props.C108_count_r",
    "Verif.Props.C108_entropy",
    "Verif.Props.C108_mus",
    "Verif.Props.C108_count_z",
    "Verif.Props.C108_count_lexparse",
    "Verif.Props.C108_lyndonfactorization",
    "Verif.Props.C108_reverse",
    "Verif.Props.C108_bwt",
    "Verif.Props.C108_mtf",
    "Verif.Props.C108_escape",
    "Verif.Props.C108_word_morphic",
    "Verif.Props.C108_word_other",
    "Verif.Props.C108_word_kolakoski",
    "Verif.Props.C108_lyndonwords",
    "Verif.Props.C108_randomstring",
    "Verif.Props.C108_no_input"
   ],
   "note": "Line is the grammar of C100; StrIs, NumIs, FlagIs, NumsAre say what is set, with the defaults. Restrictions to the domains in which the algorithms are correct are those of the cited claims."
  },
  {
   "property": "C109",
   "status": "proved",
   "theorems": [
    "Verif.Props.C109_thuemorse",
    "Verif.Props.C109_period_doubling",
    "Verif.Props.C109_vtm",
    "Verif.Props.C109_fibonacci",
    "Verif.Props.C109_fibonacci_lyndon",
    "Verif.Props.C109_commands"
   ],
   "note": "how the sorted rotation matrix of the image of a word follows from the matrix of the word, for each morphism, and run counting along that recursion; no bound on the order in the theorems about the words"
  },
  {
   "property": "C110",
   "status": "partial",
   "theorems": [
    "Verif.Props.C110_filters_partial",
    "Verif.Props.C110_files_partial",
    "Verif.Props.C110_lines_partial",
    "Verif.Props.C110_unflushed_partial",
    "Verif.Props.C110_refuted"
   ],
   "note": "False of word and randomstring on the standard output and of the report of lyndonfactorization: they do not flush, so a refused write goes unnoticed (C110_refuted); what can get lost is bounded by the buffer (C110_unflushed_partial). Proved for all other tools and outputs."
  },
  {
   "property": "C111",
   "status": "proved",
   "theorems": [
    "Verif.Props.C111_only_prefixes"
   ],
   "note": "Model of the writers of the standard library in Model/Devices."
  },
  {
   "property": "C112",
   "status": "proved",
   "theorems": [
    "Verif.Props.C112_pieces_and_interruptions"
   ],
   "note": ""
  },
  {
   "property": "C113",
   "status": "partial",
   "theorems": [
    "Verif.Props.C113_vectors_partial",
    "Verif.Props.C113_files_partial",
    "Verif.Props.C113_models_agree",
    "Verif.Props.C113_streams_refuted"
   ],
   "note": "Proved for the tools that read into memory; false of mtf, rle, escape and count_runs, which treat an error or an interrupted call as the end of the input (C113_streams_refuted)."
  },
  {
   "property": "C114",
   "status": "proved",
   "theorems": [
    "Verif.Props.C114_bounded",
    "Verif.Props.C114_never_returns",
    "Verif.Props.C114_stuck_at_report",
    "Verif.Props.C114_outcomes",
    "Verif.Props.C114_can_panic",
    "Verif.Props.C114_can_hang",
    "Verif.Props.C114_one_worker",
    "Verif.Props.C114_cause",
    "Verif.Props.C114_records_genuine"
   ],
   "note": "overflow-checked build; C114_can_hang for up to 6000 workers (the code starts 4)"
  },
  {
   "property": "C115",
   "status": "partial",
   "theorems": [
    "Verif.Props.C115_checked",
    "Verif.Props.C115_release_extends",
    "Verif.Props.C115_right_word_partial",
    "Verif.Props.C115_more_orders",
    "Verif.Props.C115_wrong_words_refuted",
    "Verif.Props.C115_wrong_length",
    "Verif.Props.C115_numbers",
    "Verif.Props.C115_lyndon_generator_partial",
    "Verif.Props.C115_lyndon_generator_refuted",
    "Verif.Props.C115_binary",
    "Verif.Props.C115_binary_refuted",
    "Verif.Props.C115_lyndonwords_refuted",
    "Verif.Props.C115_word_tool_refuted"
   ],
   "note": "false of the code for the shift generators, order 255 of Fibonacci, alphabets of 0 or more than 256 letters and binary strings longer than 64: refuted; proved for the rest"
  },
  {
   "property": "C116",
   "status": "proved",
   "theorems": [
    "Verif.Props.C116_logging_is_harmless",
    "Verif.Props.C116_messages",
    "Verif.Props.C116_line_determines_lengths"
   ],
   "note": "Model/LyndonLog models main with its log lines and the debug-only check; the time stamp and module name env_logger writes in front of a message are not modelled."
  },
  {
   "property": "C117",
   "status": "proved",
   "theorems": [
    "Verif.Props.C117_thuemorse",
    "Verif.Props.C117_period_doubling",
    "Verif.Props.C117_vtm",
    "Verif.Props.C117_fibonacci",
    "Verif.Props.C117_lyndon",
    "Verif.Props.C117_fibonacci_lyndon",
    "Verif.Props.C117_commands"
   ],
   "note": "All orders; the printed line for all orders whose word fits the tool."
  },
  {
   "property": "C118",
   "status": "proved",
   "theorems": [
    "Verif.Props.C118_defined",
    "Verif.Props.C118_append",
    "Verif.Props.C118_power",
    "Verif.Props.C118_rename",
    "Verif.Props.C118_edit",
    "Verif.Props.C118_runs"
   ],
   "note": ""
  },
  {
   "property": "C119",
   "status": "proved",
   "theorems": [
    "Verif.Props.C119_power",
    "Verif.Props.C119_rename",
    "Verif.Props.C119_bounds",
    "Verif.Props.C119_ends",
    "Verif.Props.C119_even"
   ],
   "note": ""
  },
  {
   "property": "C120",
   "status": "proved",
   "theorems": [
    "Verif.Props.C120_monotone",
    "Verif.Props.C120_rename",
    "Verif.Props.C120_reverse",
    "Verif.Props.C120_append",
    "Verif.Props.C120_power"
   ],
   "note": ""
  },
  {
   "property": "C121",
   "status": "proved",
   "theorems": [
    "Verif.Props.C121_thuemorse",
    "Verif.Props.C121_vtm",
    "Verif.Props.C121_tribonacci",
    "Verif.Props.C121_period_doubling",
    "Verif.Props.C121_fibonacci",
    "Verif.Props.C121_generators",
    "Verif.Props.C121_tool"
   ],
   "note": ""
  },
  {
   "property": "C122",
   "status": "proved",
   "theorems": [
    "Verif.Props.C122_duval",
    "Verif.Props.C122_vtm",
    "Verif.Props.C122_fibonacci",
    "Verif.Props.C122_fibonacci_even",
    "Verif.Props.C122_period_doubling",
    "Verif.Props.C122_thuemorse",
    "Verif.Props.C122_quaternary_paperfolding",
    "Verif.Props.C122_paperfolding",
    "Verif.Props.C122_power2",
    "Verif.Props.C122_commands"
   ],
   "note": "Explicit factorizations from order-preserving conjugates of the morphisms; counts for all orders."
  },
  {
   "property": "C123",
   "status": "proved",
   "theorems": [
    "Verif.Props.C123_loop",
    "Verif.Props.C123_test_duval",
    "Verif.Props.C123_test_bwt_by_matrix",
    "Verif.Props.C123_test_lyndon_conjugate",
    "Verif.Props.C123_test_border_array",
    "Verif.Props.C123_test_period",
    "Verif.Props.C123_test_compute_lz77",
    "Verif.Props.C123_test_bwt_from_text_by_sa",
    "Verif.Props.C123_test_fibonacci",
    "Verif.Props.C123_test_thue_morse",
    "Verif.Props.C123_test_binary_debruijn",
    "Verif.Props.C123_test_mus_fibonacci",
    "Verif.Props.C123_test_attractors",
    "Verif.Props.C123_conjugate_assertions",
    "Verif.Props.C123_period_assertions",
    "Verif.Props.C123_border_assertions",
    "Verif.Props.C123_border_zeros_pass",
    "Verif.Props.C123_debruijn_assertions"
   ],
   "note": "the test programs are modelled with their bounds as parameters; the de Bruijn test passes for every order although the words are not de Bruijn words from order 4 on (C47)"
  },
  {
   "property": "C124",
   "status": "proved",
   "theorems": [
    "Verif.Props.C124_checked",
    "Verif.Props.C124_texts",
    "Verif.Props.C124_arrays",
    "Verif.Props.C124_bwt",
    "Verif.Props.C124_tools",
    "Verif.Props.C124_decode",
    "Verif.Props.C124_entropy",
    "Verif.Props.C124_entropy_empty_input"
   ],
   "note": "In the release build subtraction wraps and debug assertions are skipped; sums of lengths are natural numbers in both. The generators are in C115, the streaming tools in their own claims. Panic messages are compared by kind only."
  },
  {
   "property": "C125",
   "status": "proved",
   "theorems": [
    "Verif.Props.C125_no_panic",
    "Verif.Props.C125_bounded",
    "Verif.Props.C125_deadlock_only_at_report",
    "Verif.Props.C125_outcomes",
    "Verif.Props.C125_can_finish",
    "Verif.Props.C125_can_hang",
    "Verif.Props.C125_finished",
    "Verif.Props.C125_wrong_counters",
    "Verif.Props.C125_reports",
    "Verif.Props.C125_negative_report",
    "Verif.Props.C125_records_genuine"
   ],
   "note": "Every interleaving of any number of workers. C125_can_hang is stated for 2 to 6000 workers (the code uses 4)."
  },
  {
   "property": "C126",
   "status": "proved",
   "theorems": [
    "Verif.Props.C126_unique",
    "Verif.Props.C126_thuemorse",
    "Verif.Props.C126_power2",
    "Verif.Props.C126_fibonacci_even",
    "Verif.Props.C126_fibonacci_odd",
    "Verif.Props.C126_fibonacci_lyndon",
    "Verif.Props.C126_perioddoubling",
    "Verif.Props.C126_count_lexparse",
    "Verif.Props.C126_commands"
   ],
   "note": "numbers of phrases for every order; the reported line for every order the suffix sorter can handle"
  },
  {
   "property": "C127",
   "status": "proved",
   "theorems": [
    "Verif.Props.C127_defined",
    "Verif.Props.C127_minimal",
    "Verif.Props.C127_bounds",
    "Verif.Props.C127_front",
    "Verif.Props.C127_rename",
    "Verif.Props.C127_rename_order",
    "Verif.Props.C127_power",
    "Verif.Props.C127_power_saves",
    "Verif.Props.C127_monotone_refuted"
   ],
   "note": "laws of the number of phrases; the number is not monotone under appending"
  },
  {
   "property": "C128",
   "status": "proved",
   "theorems": [
    "Verif.Props.C128_logging_is_harmless",
    "Verif.Props.C128_fibonacci",
    "Verif.Props.C128_written_refuted",
    "Verif.Props.C128_kolakoski",
    "Verif.Props.C128_count_z",
    "Verif.Props.C128_count_lexparse",
    "Verif.Props.C128_factor_text_injective",
    "Verif.Props.C128_empty_text",
    "Verif.Props.C128_mus",
    "Verif.Props.C128_bwt"
   ],
   "note": "the part about the number of written letters is refuted (C128_written_refuted)"
  },
  {
   "property": "C129",
   "status": "proved",
   "theorems": [
    "Verif.Props.C129_log",
    "Verif.Props.C129_one_tree",
    "Verif.Props.C129_logging_is_harmless",
    "Verif.Props.C129_size",
    "Verif.Props.C129_log_size"
   ],
   "note": "logging harmless at every level; exact log and output in postorder; the postorder list of the suffix tree is unique"
  },
  {
   "property": "C130",
   "status": "proved",
   "theorems": [
    "Verif.Props.C130_prefix",
    "Verif.Props.C130_all_borders",
    "Verif.Props.C130_reverse",
    "Verif.Props.C130_substring",
    "Verif.Props.C130_fine_wilf",
    "Verif.Props.C130_primitive_rotation",
    "Verif.Props.C130_root",
    "Verif.Props.C130_square",
    "Verif.Props.C130_commute"
   ],
   "note": "all laws hold without restriction"
  },
  {
   "property": "C131",
   "status": "proved",
   "theorems": [
    "Verif.Props.C131_concat",
    "Verif.Props.C131_concat_count",
    "Verif.Props.C131_run",
    "Verif.Props.C131_suffix",
    "Verif.Props.C131_ends",
    "Verif.Props.C131_substrings",
    "Verif.Props.C131_extremes",
    "Verif.Props.C131_rename"
   ],
   "note": "all laws hold without restriction"
  },
  {
   "property": "C132",
   "status": "proved",
   "theorems": [
    "Verif.Props.C132_shape",
    "Verif.Props.C132_decides_uniqueness",
    "Verif.Props.C132_reverse",
    "Verif.Props.C132_rename",
    "Verif.Props.C132_fresh_letter",
    "Verif.Props.C132_whole",
    "Verif.Props.C132_letters",
    "Verif.Props.C132_attractor"
   ],
   "note": "all laws hold without restriction"
  },
  {
   "property": "C133",
   "status": "proved",
   "theorems": [
    "Verif.Props.C133_lcp",
    "Verif.Props.C133_lcp_refuted",
    "Verif.Props.C133_psv",
    "Verif.Props.C133_psv_refuted",
    "Verif.Props.C133_nsv",
    "Verif.Props.C133_nsv_hangs"
   ],
   "note": "exact behaviour beyond 32 bits; the hang is a property of the model's loop for every fuel"
  },
  {
   "property": "C134",
   "status": "proved",
   "theorems": [
    "Verif.Props.C134_logging_is_harmless",
    "Verif.Props.C134_messages",
    "Verif.Props.C134_no_input",
    "Verif.Props.C134_kmer_order",
    "Verif.Props.C134_reverse",
    "Verif.Props.C134_escape"
   ],
   "note": "enumerate_lexparse contains debug messages as well, but never calls env_logger::init, so none is ever logged"
  },
  {
   "property": "C135",
   "status": "proved",
   "theorems": [
    "Verif.Props.C135_thuemorse",
    "Verif.Props.C135_perioddoubling",
    "Verif.Props.C135_get_mus",
    "Verif.Props.C135_power2",
    "Verif.Props.C135_power2_tool"
   ],
   "note": "The first two theorems are about the words as iterates of their morphisms (C43, C45 prove that the generators return these); the third is about get_mus on the words that the generators return. The image of a substring under the morphism, trimmed, is unique exactly if the substring is."
  },
  {
   "property": "C136",
   "status": "proved",
   "theorems": [
    "Verif.Props.C136_starts",
    "Verif.Props.C136_mus_le_runs"
   ],
   "note": "starts of minimal unique substrings are at run borders; mus < 2r for the text and its reverse"
  }
 ]
}