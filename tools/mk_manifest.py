# Writes MANIFEST.json from the table below.
import json, os
T = [
 ("C01","proved",["Verif.Props.C01_duval_factorizes","Verif.Props.C01_duval_empty"],""),
 ("C02","proved",["Verif.Props.C02_duval_unique"],""),
 ("C03","proved",["Verif.Props.C03_duval_eq_isa"],"texts of at most 2^31 bytes (i32 entries)"),
 ("C04","proved",["Verif.Props.C04_lyndon_conjugate","Verif.Props.C04_lyndon_conjugate_empty"],""),
 ("C05","proved",["Verif.Props.C05_border_array"],""),
 ("C06","proved",["Verif.Props.C06_smallest_period"],""),
 ("C07","proved",["Verif.Props.C07_is_primitive"],""),
 ("C08","proved",["Verif.Props.C08_suffixarray_naive"],""),
 ("C09","proved",["Verif.Props.C09_inverse_permutation","Verif.Props.C09_compute_phi","Verif.Props.C09_compute_phi_empty"],""),
 ("C10","proved",["Verif.Props.C10_lcp"],"texts shorter than 2^32 bytes (u32 entries)"),
 ("C11","proved",["Verif.Props.C11_compute_psv","Verif.Props.C11_compute_nsv","Verif.Props.C11_empty"],""),
 ("C12","proved",['Verif.Props.C12_bwt_sa_eq_matrix', 'Verif.Props.C12_bwt_sa_panics'],'texts shorter than 2^31 bytes; cdivsufsort by contract'),
 ("C13","proved",['Verif.Props.C13_matrix_bwt_conjugacy'],''),
 ("C14","proved",['Verif.Props.C14_sentinel_bwt_injective'],'texts shorter than 2^31-1 bytes; cdivsufsort by contract'),
 ("C15","proved",['Verif.Props.C15_fast_matrix_eq_naive', 'Verif.Props.C15_fast_matrix_zero_panics', 'Verif.Props.C15_fast_matrix_empty'],'texts shorter than 2^31-1 bytes; cdivsufsort by contract'),
 ("C16","partial",['Verif.Props.C16_tools_partial', 'Verif.Props.C16_matrix_dollar_panics', 'Verif.Props.C16_claim_false', 'Verif.Props.C16_nodollar_sa_differs', 'Verif.Props.C16_nodollar_characterized'],'The claim is false of the code (refuted by C16_claim_false: --use-matrix with the dollar panics from 99 bytes on; C16_nodollar_sa_differs: --no-dollar without --use-matrix is not the matrix BWT of bab). Proved for the remaining flag combinations; C16_nodollar_characterized says what --no-dollar without --use-matrix writes for every input.'),
 ("C17","proved",['Verif.Props.C17_bbwt_rearranges', 'Verif.Props.C17_bbwt_bijective', 'Verif.Props.C17_bbwt_injective', 'Verif.Props.C17_bbwt_empty', 'Verif.Props.C17_bbwt_table'],''),
 ("C18","proved",['Verif.Props.C18_bbwt_lyndon'],''),
 ("C19","proved",['Verif.Props.C19_lz77_decodes'],''),
 ("C20","proved",['Verif.Props.C20_lz77_greedy'],''),
 ("C21","proved",['Verif.Props.C21_lz77_minimal'],''),
 ("C22","partial",['Verif.Props.C22_lexparse_partial', 'Verif.Props.C22_lexparse_injective', 'Verif.Props.C22_lexparse_unary_refuted'],'The claim is false for one-letter texts (refuted by C22_lexparse_unary_refuted); proved for every text with two different letters.'),
 ("C23","proved",['Verif.Props.C23_get_mus_exact'],''),
 ("C24","partial",['Verif.Props.C24_mus_tool_partial', 'Verif.Props.C24_mus_tool_refuted'],'The claim is false of the code: main appends no sentinel (refuted by C24_mus_tool_refuted); the exact behaviour is proved.'),
 ("C25","proved",['Verif.Props.C25_attractor_exact', 'Verif.Props.C25_attractor_panics'],''),
 ("C26","proved",['Verif.Props.C26_zero_order', 'Verif.Props.C26_kth_order', 'Verif.Props.C26_sentinel_alone_panics', 'Verif.Props.C26_rejects'],'f64 as reals; text non-empty before the sentinel (the sentinel alone with order 1 underflows, proved)'),
 ("C27","proved",['Verif.Props.C27_tools_agree', 'Verif.Props.C27_short_panics', 'Verif.Props.C27_domain', 'Verif.Props.C27_eight'],'f64 as reals; HashMap iteration order irrelevant for the real sum'),
 ("C28","proved",['Verif.Props.C28_number_of_runs', 'Verif.Props.runs_exist_unique'],''),
 ("C29","partial",['Verif.Props.C29_count_sigma_partial', 'Verif.Props.C29_refuted', 'Verif.Props.C29_release_partial', 'Verif.Props.C29_release_covers'],'false for texts with all 256 byte values: u8 counter overflow (refuted); proved for fewer than 256 distinct bytes, both overflow modes; exact value for all others'),
 ("C30","partial",['Verif.Props.C30_mtf_lossless_partial', 'Verif.Props.C30_refuted'],'false for inputs containing byte 255 (table has 255 entries; refuted); proved for inputs without byte 255'),
 ("C31","proved",['Verif.Props.C31_rle', 'Verif.Props.C31_release_lossy'],'overflow-checked build; the release build is lossy (proved)'),
 ("C32","proved",['Verif.Props.C32_rle_text', 'Verif.Props.C32_rle_text_injective'],''),
 ("C33","partial",['Verif.Props.C33_refuted', 'Verif.Props.C33_rle_zero_partial', 'Verif.Props.C33_exact_partial', 'Verif.Props.C33_covers_partial', 'Verif.Props.C33_long_run_partial', 'Verif.Props.C33_collisions_partial'],'false: the letter after a run of 0 is dropped (refuted); proved for texts whose 0s form a final run of at most 255; exact output for all texts without 256 consecutive zeros, panic of the debug build for the others, and exactly which inputs collide'),
 ("C34","proved",['Verif.Props.C34_escape_roundtrip', 'Verif.Props.C34_duplicate_to_lossy', 'Verif.Props.C34_refused'],''),
 ("C35","partial",['Verif.Props.C35_refuted', 'Verif.Props.C35_escape_prefix_partial'],'false: default prefix length 0 writes nothing (refuted); proved for an explicit prefix length'),
 ("C53","proved",['Verif.Props.C53_file_prefix', 'Verif.Props.C53_stdin_prefix', 'Verif.Props.C53_dispatch'],''),
 ("C54","proved",['Verif.Props.C54_reverse'],''),
 ("C36","proved",['Verif.Props.C36_lyndon_words', 'Verif.Props.C36_lyndonwords_tool'],'generator and the lyndonwords tool'),
 ("C37","partial",['Verif.Props.C37_binary_strings_partial', 'Verif.Props.C37_refuted', 'Verif.Props.C37_exact_partial', 'Verif.Props.C37_last_missing_refuted', 'Verif.Props.C37_limit'],'exact result of every call; all strings once in the first 2^len calls; order is that of reversed strings and the generator does not end (refuted)'),
 ("C38","proved",['Verif.Props.C38_conjugates'],''),
 ("C39","proved",['Verif.Props.C39_test_strings'],''),
 ("C40","proved",['Verif.Props.C40_enumerate', 'Verif.Props.C40_invalid'],''),
 ("C41","proved",['Verif.Props.C41_kmer_generator', 'Verif.Props.C41_constants', 'Verif.Props.C41_limits'],''),
 ("C56","proved",['Verif.Props.C56_randomstring'],'random source = list of samples'),
 ("C60","proved",['Verif.Props.C60_bit_size'],''),
 ("C43","proved",['Verif.Props.C43_thuemorse_letters', 'Verif.Props.C43_thuemorse_morphism', 'Verif.Props.C43_thuemorse_complement', 'Verif.Props.C43_limit'],'k <= 62; C43_limit: panics from k = 63 on.'),
 ("C45","proved",['Verif.Props.C45_iterate2', 'Verif.Props.C45_general', 'Verif.Props.C45_with_start', 'Verif.Props.C45_limit', 'Verif.Props.C45_period_doubling'],'every 2-uniform / prolongable non-erasing morphism; the allocation must be possible.'),
 ("C46","proved",['Verif.Props.C46_quaternary', 'Verif.Props.C46_paperfolding', 'Verif.Props.C46_fold'],'orders up to 62 (quaternary) and 61 (binary); larger orders cannot be allocated.'),
 ("C42","proved",['Verif.Props.C42_fibonacci_number', 'Verif.Props.C42_recurrence', 'Verif.Props.C42_fibonacci_word', 'Verif.Props.C42_binet', 'Verif.Props.C42_fibonacci_word_exact', 'Verif.Props.C42_fibonacci_word_rounded', 'Verif.Props.C42_agree'],'words for k <= 90 (buffer below 2^63), numbers for k <= 91; the floating-point estimate is a parameter with an explicit accuracy hypothesis, which C99 proves for f64.'),
 ("C44","proved",['Verif.Props.C44_kolakoski', 'Verif.Props.C44_self_reading', 'Verif.Props.C44_length', 'Verif.Props.C44_limit'],'orders up to 60; larger orders panic (C44_limit).'),
 ("C50","proved",['Verif.Props.C50_tribonacci_number', 'Verif.Props.C50_tribonacci_word'],'numbers for k <= 72, words for k <= 71 (allocation limit).'),
 ("C51","partial",['Verif.Props.C51_vtm_word_partial', 'Verif.Props.C51_refuted'],'false for k >= 30: the size hint overflows 32 bits and the function panics (C51_refuted); proved for k <= 29.'),
 ("C52","proved",['Verif.Props.C52_lyndon_factors', 'Verif.Props.C52_kth_factor', 'Verif.Props.C52_limit'],"orders up to 29, the size hint's 32-bit limit."),
 ("C47","partial",['Verif.Props.C47_binary_debruijn_partial', 'Verif.Props.C47_by_length_partial', 'Verif.Props.C47_small_partial', 'Verif.Props.C47_refuted', 'Verif.Props.C47_even_orders_refuted'],'false from k = 4 on (C47_refuted): is_necklace accepts prenecklaces. Proved for every k: termination, letters, length bounds, no window occurs twice; exact for k <= 3; refuted for k = 4 and for every even k >= 4 (C47_even_orders_refuted).'),
 ("C48","partial",['Verif.Props.C48_is_necklace_partial', 'Verif.Props.C48_accepts_necklaces_partial', 'Verif.Props.C48_refuted'],'false: aba is accepted. Proved: exact characterization (prenecklaces), and every necklace is accepted.'),
 ("C49","partial",['Verif.Props.C49_power2_partial', 'Verif.Props.C49_refuted', 'Verif.Props.C49_limit'],'false for the last symbol of every order (byte 0 instead of b); all other symbols proved.'),
 ("C55","proved",['Verif.Props.C55_lyndon_report', 'Verif.Props.C55_dropped', 'Verif.Props.C55_empty'],'the report file, byte for byte; the factor left out is the single byte 0'),
 ("C59","partial",['Verif.Props.C59_distinct_partial', 'Verif.Props.C59_refuted'],'exact value for every text: one too few exactly when the first two factors have equal length and differ in the last letter only; refuted on ba'),
 ("C57","proved",['Verif.Props.C57_schedule_independent', 'Verif.Props.C57_same_as_sequential', 'Verif.Props.C57_no_panic', 'Verif.Props.C57_no_deadlock', 'Verif.Props.C57_terminates', 'Verif.Props.C57_finishes'],'interleaving semantics for any number of workers; final table = counts of the binary Lyndon words; no panic, no deadlock, termination'),
 ("C58","partial",['Verif.Props.C58_lost_update_refuted', 'Verif.Props.C58_deadlock_refuted', 'Verif.Props.C58_deadlock_final', 'Verif.Props.C58_records_genuine_partial', 'Verif.Props.C58_panic_only_overflow_partial', 'Verif.Props.C58_overflow_refuted', 'Verif.Props.C58_deadlock_any_policy_partial', 'Verif.Props.C58_deadlock_only_at_report_partial', 'Verif.Props.C58_single_worker_partial', 'Verif.Props.C58_single_worker_runs', 'Verif.Props.C58_first_best_partial', 'Verif.Props.C58_never_finishes'],"The claim is false of the code: the record can get worse (lost update between releasing the read locks and taking the write locks) and the workers can deadlock (num/total taken in opposite orders); both are proved for the code's four workers. Proved for every interleaving: recorded entries are genuine, panics come only from i32 counter overflow, deadlocks occur (under any RwLock policy) only while the total is a multiple of 10000; for one worker the full claim. Also: no interleaving can finish (the i32 counters overflow first)."),
 ("C64","proved",['Verif.Props.C64_fibonacci_attractor', 'Verif.Props.C64_test_holds'],'word-level statement for every order >= 2; through the modelled functions for 3 <= i <= 44 (beyond, the word exceeds the 2^31-1 bytes of the suffix sorter)'),
 ("C61","proved",['Verif.Props.C61_even_two_runs', 'Verif.Props.C61_odd_four_runs', 'Verif.Props.C61_even_all_orders'],'through the modelled functions for orders up to 44 (2^31-1 byte limit of the suffix sorter), about the words for every order'),
 ("C62","proved",['Verif.Props.C62_fibonacci_mus', 'Verif.Props.C62_test_holds'],'word-level statement for every order; through the modelled functions for orders up to 44'),
 ("C63","proved",['Verif.Props.C63_period_doubling_attractor', 'Verif.Props.C63_test_holds'],'word-level statement for every order >= 3; through the modelled functions for i <= 31 (2^31-1 byte limit of the suffix sorter)'),
 ("C65","proved",['Verif.Props.C65_parse_ends_attractor', 'Verif.Props.C65_lz77_ends_accepted'],''),
 ("C66","proved",['Verif.Props.C66_bbwt_necklace', 'Verif.Props.C66_sa_necklace', 'Verif.Props.C66_lyndon_conjugate_bwts'],'The TODO at the end of unfinished/parallel.rs holds for every zero-free text.'),
 ("C67","proved",['Verif.Props.C67_mtf_files', 'Verif.Props.C67_rle_files', 'Verif.Props.C67_rle_human', 'Verif.Props.C67_reverse_files', 'Verif.Props.C67_escape_files', 'Verif.Props.C67_bwt_files', 'Verif.Props.C67_pipes', 'Verif.Props.C67_uncreatable_output'],''),
 ("C68","partial",['Verif.Props.C68_inplace_partial', 'Verif.Props.C68_bwt_failure_harmless', 'Verif.Props.C68_inplace_refuted', 'Verif.Props.C68_failure_harmless_refuted', 'Verif.Props.C68_refused_table_empties'],'Proved for bwt. False of mtf, rle, reverse and escape: in place they succeed and leave an empty file (C68_inplace_refuted); a missing input or a too large order empties the output file (C68_failure_harmless_refuted).'),
 ("C69","proved",['Verif.Props.C69_word_tool_morphic', 'Verif.Props.C69_word_tool_other'],'Within the limits of C42-C52; de Bruijn words up to order 3 (see C47), powers of two without the last letter (see C49).'),
 ("C70","proved",['Verif.Props.C70_exit_status'],''),
 ("C71","proved",['Verif.Props.C71_count_sigma', 'Verif.Props.C71_count_runs', 'Verif.Props.C71_entropy'],''),
 ("C72","proved",['Verif.Props.C72_pipeline'],''),
 ("C73","proved",['Verif.Props.C73_count_z_file', 'Verif.Props.C73_count_z_decodable', 'Verif.Props.C73_without_file', 'Verif.Props.C73_count_lexparse_file'],'Factor files written by count_z and count_lexparse; one-letter texts under lexparse are excluded, see C22.'),
 ("C74","partial",['Verif.Props.C74_readme_pipeline_partial', 'Verif.Props.C74_readme_refuted'],'Holds when -p covers the input; the command exactly as printed in the README (prefix length 0) always makes count_r report length 1 and one run.'),
 ("C75","proved",['Verif.Props.C75_probe_output'],'for every length bound (the code uses 16)'),
 ("C76","proved",['Verif.Props.C76_enumerate_lexparse'],'for every alphabet size up to 26 and length (the code uses 2 and 32); itertools permutations by contract'),
 ("C77","proved",['Verif.Props.C77_report_determines_text', 'Verif.Props.C77_files'],''),
 ("C78","partial",['Verif.Props.C78_length_partial', 'Verif.Props.C78_length_refuted'],'False for the default prefix length: 0 is printed.'),
 ("C79","proved",['Verif.Props.C79_thuemorse_overlap_free', 'Verif.Props.C79_thuemorse_cube_free'],'all orders for which the function does not panic'),
 ("C80","proved",['Verif.Props.C80_vtm_square_free', 'Verif.Props.C80_vtm_letters'],'orders up to 29; larger orders panic (C51_refuted)'),
 ("C81","proved",['Verif.Props.C81_attractor_bounds_substrings', 'Verif.Props.C81_lz77_bounds_substrings', 'Verif.Props.C81_sigma_le_z'],''),
 ("C82","proved",['Verif.Props.C82_run_borders_accepted', 'Verif.Props.C82_runs_bound_substrings'],''),
 ("C83","proved",['Verif.Props.C83_reported_substrings', 'Verif.Props.C83_panics', 'Verif.Props.C83_output'],''),
 ("C84","proved",['Verif.Props.C84_zero_order_range', 'Verif.Props.C84_at_most_eight', 'Verif.Props.C84_rearranged', 'Verif.Props.C84_decreasing', 'Verif.Props.C84_zero_iff'],'Concavity of the logarithm (log-sum inequality); f64 modelled by the reals.'),
 ("C85","proved",['Verif.Props.C85_revert_iff', 'Verif.Props.C85_revert_fails', 'Verif.Props.C85_revert_then_escape'],'Exact domain and result of the reverting direction.'),
 ("C86","proved",['Verif.Props.C86_lexparse_le_runs'],'Irreducible positions are run starts; chains of reducible positions cannot end a factor.'),
 ("C87","proved",['Verif.Props.C87_lexparse_ends_accepted'],'Copies go to lexicographically smaller suffixes; induction on the rank.'),
 ("C88","proved",['Verif.Props.C88_deterministic', 'Verif.Props.C88_unary', 'Verif.Props.C88_unary_kmer', 'Verif.Props.C88_alternating', 'Verif.Props.C88_long_order'],'closed forms for all lengths and orders (f64 modelled by the reals)'),
 ("C89","partial",['Verif.Props.C89_count_sigma_partial', 'Verif.Props.C89_count_r_partial', 'Verif.Props.C89_count_z_partial', 'Verif.Props.C89_count_lexparse_partial', 'Verif.Props.C89_lyndonfactorization_partial', 'Verif.Props.C89_entropy_partial', 'Verif.Props.C89_mus_refuted', 'Verif.Props.C89_name_refuted'],'proved for file names without blanks and all tools but mus; false for names with blanks (C89_name_refuted) and for mus, whose list contains blanks (C89_mus_refuted)'),
 ("C90","partial",['Verif.Props.C90_row_partial', 'Verif.Props.C90_columns_refuted', 'Verif.Props.C90_name_refuted'],'the cells are the exact values for zero-free non-empty files with a name without blanks, but the columns z and r are swapped against the header (C90_columns_refuted) and names with blanks can forge a value (C90_name_refuted)'),
 ("C91","proved",['Verif.Props.C91_gen_artificial', 'Verif.Props.C91_unwritable', 'Verif.Props.C69_stdout'],'210 files named by two-digit order; contents by the specifications of C42-C51.'),
 ("C92","proved",['Verif.Props.C92_printed_table'],'Composition with C57.'),
 ("C93","proved",['Verif.Props.C93_worker_lines', 'Verif.Props.C93_schedule_independent'],''),
 ("C94","partial",['Verif.Props.C94_reports_partial', 'Verif.Props.C94_single_worker_partial', 'Verif.Props.C94_label_refuted', 'Verif.Props.C94_missed_refuted', 'Verif.Props.C94_report_happens'],'Claim false of the code: label length=l is length l+1, and a report can be skipped with >= 2 workers (both refuted by reachable runs). Proved for every interleaving: complete, non-interleaved reports at multiples of 10000 with non-decreasing totals, sums and balance of the counts, genuine texts; for one worker exactly one report per multiple.'),
 ("C95","proved",['Verif.Props.C95_generator', 'Verif.Props.C95_tool', 'Verif.Props.C95_parallel'],'Counting identity and its Moebius inversion for the generator, the tool and the parallel program.'),
 ("C96","proved",['Verif.Props.C96_inverse_permutation', 'Verif.Props.C96_compute_phi', 'Verif.Props.C96_compute_lcp', 'Verif.Props.C96_compute_plcp', 'Verif.Props.C96_bwt_from_sa', 'Verif.Props.C96_smallest_period', 'Verif.Props.C96_isa_factorization', 'Verif.Props.C96_texts', 'Verif.Props.C96_byte_texts'],'For psv/nsv texts shorter than 2^32 letters; for the two suffix-sorting transforms the sorter meets its contract and the text has fewer than 2^31-1 bytes. A negative i32 entry of phi, which becomes a huge index by sign extension, is not modelled.'),
 ("C97","proved",['Verif.Props.C97_duval', 'Verif.Props.C97_border_array', 'Verif.Props.C97_conjugate_primitive', 'Verif.Props.C97_plcp', 'Verif.Props.C97_smaller_values'],'The counted programs (Model/Cost) repeat the model with a counter; forgetting the counter gives the model functions (duvalC_erase etc. of Lemmas/Cost).'),
 ("C98","proved",['Verif.Props.C98_binary64', 'Verif.Props.C98_zero_order', 'Verif.Props.C98_kth_order', 'Verif.Props.C98_kmer', 'Verif.Props.C98_zero_order_f64', 'Verif.Props.C98_kth_order_f64', 'Verif.Props.C98_kmer_f64', 'Verif.Props.C98_tools_agree_f64', 'Verif.Props.C98_unary_f64'],"rounding modelled by the standard model with underflow and overflow thresholds, which is proved for every rounding to a nearest f64 number; the accuracy of the C library's log2 (2^-52) is a hypothesis; printing of the decimal digits is not modelled"),
 ("C99","proved",['Verif.Props.C99_fibonacci_estimate', 'Verif.Props.C99_fibonacci_word', 'Verif.Props.C99_kolakoski_estimate'],'powi modelled as the run-time function __powidf2; Rust leaves its precision unspecified'),
 ("C100","proved",['Verif.Props.C100_command_lines', 'Verif.Props.C100_unambiguous', 'Verif.Props.C100_exit_status', 'Verif.Props.C100_help', 'Verif.Props.C100_rejected_no_effect', 'Verif.Props.C100_required', 'Verif.Props.C100_options', 'Verif.Props.C100_known_letter'],'Spec.Cli.Line is the grammar; iff for every list of words; clap itself is modelled from its documentation'),
 ("C101","proved",['Verif.Props.C101_order', 'Verif.Props.C101_fields'],'all seventeen commands of the list commands; any two accepted lines with permuted settings'),
 ("C102","proved",['Verif.Props.C102_reverse', 'Verif.Props.C102_bwt', 'Verif.Props.C102_mtf', 'Verif.Props.C102_attractor', 'Verif.Props.C102_status_two'],'from the words of the command line to files and exit status'),
 ("C103","partial",['Verif.Props.C103_script_lines_accepted', 'Verif.Props.C103_script_lines_run', 'Verif.Props.C103_readme_examples', 'Verif.Props.C103_infilename_accepted', 'Verif.Props.C103_escape_lists', 'Verif.Props.C103_stats_script_refuted', 'Verif.Props.C103_readme_file_refuted', 'Verif.Props.C103_readme_names_refuted', 'Verif.Props.C103_escape_commas_refuted'],'gen_artificial.sh and two README examples work; compute_stats.sh, count_sigma --file, four word names and comma separated lists are refuted for all parameters'),
 ("C104","partial",['Verif.Props.C104_rle_release_partial', 'Verif.Props.C104_onlyzero_needs_long', 'Verif.Props.C104_rle_files_partial', 'Verif.Props.C104_rle_human_partial', 'Verif.Props.C104_rle_onlyzero_partial', 'Verif.Props.C104_rle_debug_refuted'],'the property is false: debug builds always panic, in release builds -o never selects onlyzero; the release grammar is exact'),
 ("C105","proved",['Verif.Props.C105_enumerate_lines', 'Verif.Props.C105_enumerate_rejected', 'Verif.Props.C105_enumerate_command'],'iff for every list of words'),
 ("C106","proved",['Verif.Props.C106_release_rle', 'Verif.Props.C106_release_text', 'Verif.Props.C106_builds_agree'],'exact for every stream'),
 ("C107","proved",['Verif.Props.C107_fibonacci', 'Verif.Props.C107_thuemorse', 'Verif.Props.C107_period_doubling', 'Verif.Props.C107_vtm', 'Verif.Props.C107_tribonacci', 'Verif.Props.C107_quaternary_paperfolding', 'Verif.Props.C107_paperfolding', 'Verif.Props.C107_count_z', 'Verif.Props.C107_commands'],'lower bound by disjoint substrings without earlier occurrence, upper bound by explicit parses, both for every order'),
 ("C108","proved",['Verif.Props.C108_count_runs', 'Verif.Props.C108_count_sigma', 'Verif.Props.C108_count_r', 'Verif.Props.C108_entropy', 'Verif.Props.C108_mus', 'Verif.Props.C108_count_z', 'Verif.Props.C108_count_lexparse', 'Verif.Props.C108_lyndonfactorization', 'Verif.Props.C108_reverse', 'Verif.Props.C108_bwt', 'Verif.Props.C108_mtf', 'Verif.Props.C108_escape', 'Verif.Props.C108_word_morphic', 'Verif.Props.C108_word_other', 'Verif.Props.C108_word_kolakoski', 'Verif.Props.C108_lyndonwords', 'Verif.Props.C108_randomstring', 'Verif.Props.C108_no_input'],'Line is the grammar of C100; StrIs, NumIs, FlagIs, NumsAre say what is set, with the defaults. Restrictions to the domains in which the algorithms are correct are those of the cited claims.'),
 ("C109","proved",['Verif.Props.C109_thuemorse', 'Verif.Props.C109_period_doubling', 'Verif.Props.C109_vtm', 'Verif.Props.C109_fibonacci', 'Verif.Props.C109_fibonacci_lyndon', 'Verif.Props.C109_commands'],'how the sorted rotation matrix of the image of a word follows from the matrix of the word, for each morphism, and run counting along that recursion; no bound on the order in the theorems about the words'),
 ("C110","partial",['Verif.Props.C110_filters_partial', 'Verif.Props.C110_files_partial', 'Verif.Props.C110_lines_partial', 'Verif.Props.C110_unflushed_partial', 'Verif.Props.C110_refuted'],'False of word and randomstring on the standard output and of the report of lyndonfactorization: they do not flush, so a refused write goes unnoticed (C110_refuted); what can get lost is bounded by the buffer (C110_unflushed_partial). Proved for all other tools and outputs.'),
 ("C111","proved",['Verif.Props.C111_only_prefixes'],'Model of the writers of the standard library in Model/Devices.'),
 ("C112","proved",['Verif.Props.C112_pieces_and_interruptions'],''),
 ("C113","partial",['Verif.Props.C113_vectors_partial', 'Verif.Props.C113_files_partial', 'Verif.Props.C113_models_agree', 'Verif.Props.C113_streams_refuted'],'Proved for the tools that read into memory; false of mtf, rle, escape and count_runs, which treat an error or an interrupted call as the end of the input (C113_streams_refuted).'),
 ("C114","proved",['Verif.Props.C114_bounded', 'Verif.Props.C114_never_returns', 'Verif.Props.C114_stuck_at_report', 'Verif.Props.C114_outcomes', 'Verif.Props.C114_can_panic', 'Verif.Props.C114_can_hang', 'Verif.Props.C114_one_worker', 'Verif.Props.C114_cause', 'Verif.Props.C114_records_genuine'],'overflow-checked build; C114_can_hang for up to 6000 workers (the code starts 4)'),
 ("C115","partial",['Verif.Props.C115_checked', 'Verif.Props.C115_release_extends', 'Verif.Props.C115_right_word_partial', 'Verif.Props.C115_more_orders', 'Verif.Props.C115_wrong_words_refuted', 'Verif.Props.C115_wrong_length', 'Verif.Props.C115_numbers', 'Verif.Props.C115_lyndon_generator_partial', 'Verif.Props.C115_lyndon_generator_refuted', 'Verif.Props.C115_binary', 'Verif.Props.C115_binary_refuted', 'Verif.Props.C115_lyndonwords_refuted', 'Verif.Props.C115_word_tool_refuted'],'false of the code for the shift generators, order 255 of Fibonacci, alphabets of 0 or more than 256 letters and binary strings longer than 64: refuted; proved for the rest'),
 ("C116","proved",['Verif.Props.C116_logging_is_harmless', 'Verif.Props.C116_messages', 'Verif.Props.C116_line_determines_lengths'],'Model/LyndonLog models main with its log lines and the debug-only check; the time stamp and module name env_logger writes in front of a message are not modelled.'),
 ("C117","proved",['Verif.Props.C117_thuemorse', 'Verif.Props.C117_period_doubling', 'Verif.Props.C117_vtm', 'Verif.Props.C117_fibonacci', 'Verif.Props.C117_lyndon', 'Verif.Props.C117_fibonacci_lyndon', 'Verif.Props.C117_commands'],'All orders; the printed line for all orders whose word fits the tool.'),
 ("C118","proved",['Verif.Props.C118_defined', 'Verif.Props.C118_append', 'Verif.Props.C118_power', 'Verif.Props.C118_rename', 'Verif.Props.C118_edit', 'Verif.Props.C118_runs'],''),
 ("C119","proved",['Verif.Props.C119_power', 'Verif.Props.C119_rename', 'Verif.Props.C119_bounds', 'Verif.Props.C119_ends', 'Verif.Props.C119_even'],''),
 ("C120","proved",['Verif.Props.C120_monotone', 'Verif.Props.C120_rename', 'Verif.Props.C120_reverse', 'Verif.Props.C120_append', 'Verif.Props.C120_power'],''),
 ("C121","proved",['Verif.Props.C121_thuemorse', 'Verif.Props.C121_vtm', 'Verif.Props.C121_tribonacci', 'Verif.Props.C121_period_doubling', 'Verif.Props.C121_fibonacci', 'Verif.Props.C121_generators', 'Verif.Props.C121_tool'],''),
 ("C122","proved",['Verif.Props.C122_duval', 'Verif.Props.C122_vtm', 'Verif.Props.C122_fibonacci', 'Verif.Props.C122_fibonacci_even', 'Verif.Props.C122_period_doubling', 'Verif.Props.C122_thuemorse', 'Verif.Props.C122_quaternary_paperfolding', 'Verif.Props.C122_paperfolding', 'Verif.Props.C122_power2', 'Verif.Props.C122_commands'],'Explicit factorizations from order-preserving conjugates of the morphisms; counts for all orders.'),
 ("C123","proved",['Verif.Props.C123_loop', 'Verif.Props.C123_test_duval', 'Verif.Props.C123_test_bwt_by_matrix', 'Verif.Props.C123_test_lyndon_conjugate', 'Verif.Props.C123_test_border_array', 'Verif.Props.C123_test_period', 'Verif.Props.C123_test_compute_lz77', 'Verif.Props.C123_test_bwt_from_text_by_sa', 'Verif.Props.C123_test_fibonacci', 'Verif.Props.C123_test_thue_morse', 'Verif.Props.C123_test_binary_debruijn', 'Verif.Props.C123_test_mus_fibonacci', 'Verif.Props.C123_test_attractors', 'Verif.Props.C123_conjugate_assertions', 'Verif.Props.C123_period_assertions', 'Verif.Props.C123_border_assertions', 'Verif.Props.C123_border_zeros_pass', 'Verif.Props.C123_debruijn_assertions'],'the test programs are modelled with their bounds as parameters; the de Bruijn test passes for every order although the words are not de Bruijn words from order 4 on (C47)'),
 ("C124","proved",['Verif.Props.C124_checked', 'Verif.Props.C124_texts', 'Verif.Props.C124_arrays', 'Verif.Props.C124_bwt', 'Verif.Props.C124_tools', 'Verif.Props.C124_decode', 'Verif.Props.C124_entropy', 'Verif.Props.C124_entropy_empty_input'],'In the release build subtraction wraps and debug assertions are skipped; sums of lengths are natural numbers in both. The generators are in C115, the streaming tools in their own claims. Panic messages are compared by kind only.'),
 ("C125","proved",['Verif.Props.C125_no_panic', 'Verif.Props.C125_bounded', 'Verif.Props.C125_deadlock_only_at_report', 'Verif.Props.C125_outcomes', 'Verif.Props.C125_can_finish', 'Verif.Props.C125_can_hang', 'Verif.Props.C125_finished', 'Verif.Props.C125_wrong_counters', 'Verif.Props.C125_reports', 'Verif.Props.C125_negative_report', 'Verif.Props.C125_records_genuine'],'Every interleaving of any number of workers. C125_can_hang is stated for 2 to 6000 workers (the code uses 4).'),
 ("C126","proved",['Verif.Props.C126_unique', 'Verif.Props.C126_thuemorse', 'Verif.Props.C126_power2', 'Verif.Props.C126_fibonacci_even', 'Verif.Props.C126_fibonacci_odd', 'Verif.Props.C126_fibonacci_lyndon', 'Verif.Props.C126_perioddoubling', 'Verif.Props.C126_count_lexparse', 'Verif.Props.C126_commands'],'numbers of phrases for every order; the reported line for every order the suffix sorter can handle'),
 ("C127","proved",['Verif.Props.C127_defined', 'Verif.Props.C127_minimal', 'Verif.Props.C127_bounds', 'Verif.Props.C127_front', 'Verif.Props.C127_rename', 'Verif.Props.C127_rename_order', 'Verif.Props.C127_power', 'Verif.Props.C127_power_saves', 'Verif.Props.C127_monotone_refuted'],'laws of the number of phrases; the number is not monotone under appending'),
 ("C128","proved",['Verif.Props.C128_logging_is_harmless', 'Verif.Props.C128_fibonacci', 'Verif.Props.C128_written_refuted', 'Verif.Props.C128_kolakoski', 'Verif.Props.C128_count_z', 'Verif.Props.C128_count_lexparse', 'Verif.Props.C128_factor_text_injective', 'Verif.Props.C128_empty_text', 'Verif.Props.C128_mus', 'Verif.Props.C128_bwt'],'the part about the number of written letters is refuted (C128_written_refuted)'),
 ("C129","proved",['Verif.Props.C129_log', 'Verif.Props.C129_one_tree', 'Verif.Props.C129_logging_is_harmless', 'Verif.Props.C129_size', 'Verif.Props.C129_log_size'],'logging harmless at every level; exact log and output in postorder; the postorder list of the suffix tree is unique'),
 ("C130","proved",['Verif.Props.C130_prefix', 'Verif.Props.C130_all_borders', 'Verif.Props.C130_reverse', 'Verif.Props.C130_substring', 'Verif.Props.C130_fine_wilf', 'Verif.Props.C130_primitive_rotation', 'Verif.Props.C130_root', 'Verif.Props.C130_square', 'Verif.Props.C130_commute'],'all laws hold without restriction'),
 ("C131","proved",['Verif.Props.C131_concat', 'Verif.Props.C131_concat_count', 'Verif.Props.C131_run', 'Verif.Props.C131_suffix', 'Verif.Props.C131_ends', 'Verif.Props.C131_substrings', 'Verif.Props.C131_extremes', 'Verif.Props.C131_rename'],'all laws hold without restriction'),
 ("C132","proved",['Verif.Props.C132_shape', 'Verif.Props.C132_decides_uniqueness', 'Verif.Props.C132_reverse', 'Verif.Props.C132_rename', 'Verif.Props.C132_fresh_letter', 'Verif.Props.C132_whole', 'Verif.Props.C132_letters', 'Verif.Props.C132_attractor'],'all laws hold without restriction'),
 ("C133","proved",['Verif.Props.C133_lcp', 'Verif.Props.C133_lcp_refuted', 'Verif.Props.C133_psv', 'Verif.Props.C133_psv_refuted', 'Verif.Props.C133_nsv', 'Verif.Props.C133_nsv_hangs'],"exact behaviour beyond 32 bits; the hang is a property of the model's loop for every fuel"),
 ("C134","proved",['Verif.Props.C134_logging_is_harmless', 'Verif.Props.C134_messages', 'Verif.Props.C134_no_input', 'Verif.Props.C134_kmer_order', 'Verif.Props.C134_reverse', 'Verif.Props.C134_escape'],'enumerate_lexparse contains debug messages as well, but never calls env_logger::init, so none is ever logged'),
 ("C135","proved",['Verif.Props.C135_thuemorse', 'Verif.Props.C135_perioddoubling', 'Verif.Props.C135_get_mus', 'Verif.Props.C135_power2', 'Verif.Props.C135_power2_tool'],'The first two theorems are about the words as iterates of their morphisms (C43, C45 prove that the generators return these); the third is about get_mus on the words that the generators return. The image of a substring under the morphism, trimmed, is unique exactly if the substring is.'),
 ("C136","proved",['Verif.Props.C136_starts', 'Verif.Props.C136_mus_le_runs'],'starts of minimal unique substrings are at run borders; mus < 2r for the text and its reverse'),
]
json.dump({"claims":[dict(property=a,status=b,theorems=c,note=d) for a,b,c,d in T]},
          open(os.path.join(os.path.dirname(__file__),"..","MANIFEST.json"),"w"),indent=1)
