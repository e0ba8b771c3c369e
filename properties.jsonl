{"id": "C01", "title": "Lyndon factorization is a valid factorization", "statement": "core::duval(text) never panics and returns strictly increasing end positions that cut text into consecutive non-empty pieces whose concatenation is text, each piece being a Lyndon word (strictly smaller than each of its proper suffixes), the sequence of pieces being lexicographically non-increasing; on the empty text it returns no positions.", "quantifier": "every totally ordered alphabet and every finite text over it, of every length, including the empty text", "why_tests_cant": "there are infinitely many texts; the repository's test only samples binary strings of at most 11 letters and compares against another algorithm of the same library", "anchors": ["src/core.rs:duval"]}
{"id": "C02", "title": "Lyndon factorization is the unique one", "statement": "Whatever list of Lyndon words in non-increasing order concatenates to text, it is the list of pieces given by core::duval(text); so two callers that factorize by any correct method agree with duval.", "quantifier": "every text and every candidate factorization of it into Lyndon words", "why_tests_cant": "quantifies over all competing factorizations of all texts", "anchors": ["src/core.rs:duval"]}
{"id": "C03", "title": "Duval and the suffix-array route agree", "statement": "For every non-empty text, core::isa_lyndon_factorization(core::inverse_permutation(sa)), with sa the suffix array of text, returns exactly the positions of core::duval(text) (the assertion made in the lyndonfactorization tool and in test_duval).", "quantifier": "every non-empty text, with or without a sentinel at the end", "why_tests_cant": "an equality of two algorithms over an infinite domain; tests compare them on short binary strings with a sentinel only", "anchors": ["src/core.rs:duval", "src/core.rs:isa_lyndon_factorization", "src/core.rs:inverse_permutation", "src/bin/lyndonfactorization.rs:main"]}
{"id": "C04", "title": "Lyndon conjugate is the least rotation", "statement": "For every non-empty text, core::lyndon_conjugate(text) returns without panic a start p < n such that the rotation text[p..] ++ text[..p] is lexicographically not larger than any other rotation; if text is primitive that rotation is a Lyndon word. On the empty text it panics.", "quantifier": "every non-empty text over every totally ordered alphabet, primitive or not", "why_tests_cant": "minimality is over all rotations of all texts; the loop relies on a non-obvious fact about the factorization of the doubled text", "anchors": ["src/core.rs:lyndon_conjugate", "src/core.rs:duval"]}
{"id": "C05", "title": "Border array entries are longest proper borders", "statement": "core::border_array(text) has n+1 entries, never panics, entry 0 is 0, and for 1 <= i <= n entry i is the length of the longest proper border of the length-i prefix of text: that many letters are both prefix and suffix of text[0..i), it is smaller than i, and no larger proper border exists.", "quantifier": "every text over every alphabet with decidable equality, every prefix length", "why_tests_cant": "maximality over all borders of all prefixes of all texts; the repository's test checks only that the entries are borders, not that they are longest, and skips the last entry", "anchors": ["src/core.rs:border_array"]}
{"id": "C06", "title": "Smallest period", "statement": "core::smallest_period(core::border_array(text)) is, for non-empty text, the least p >= 1 such that text[i] = text[i+p] whenever both positions exist.", "quantifier": "every non-empty text", "why_tests_cant": "leastness over all periods of all texts", "anchors": ["src/core.rs:smallest_period", "src/core.rs:border_array"]}
{"id": "C07", "title": "Primitivity test is exact", "statement": "For non-empty text, core::is_primitive(text) returns true exactly if text is not u repeated k times for any string u and integer k >= 2.", "quantifier": "every non-empty text, every candidate root u and exponent k", "why_tests_cant": "both directions quantify over all roots and exponents; correctness of dividing by only the smallest period is the Fine-Wilf theorem", "anchors": ["src/core.rs:is_primitive", "src/core.rs:smallest_period", "src/core.rs:border_array"]}
{"id": "C08", "title": "Naive suffix array is the suffix array", "statement": "core::suffixarray_naive(text) is a permutation of 0..n listing the suffixes of text in strictly increasing lexicographic order, and no other array has this property.", "quantifier": "every text over every totally ordered alphabet", "why_tests_cant": "infinite input domain plus uniqueness over all permutations", "anchors": ["src/core.rs:suffixarray_naive"]}
{"id": "C09", "title": "Phi and inverse permutation arrays", "statement": "For every permutation p of 0..n, core::inverse_permutation(p) is the permutation q with q[p[i]] = i and p[q[i]] = i; for non-empty p, core::compute_phi(p)[p[i]] = p[i-1] for i >= 1 and compute_phi(p)[p[0]] = p[n-1]; neither panics (compute_phi panics exactly on the empty array).", "quantifier": "every permutation of every size", "why_tests_cant": "all n! permutations for every n", "anchors": ["src/core.rs:compute_phi", "src/core.rs:inverse_permutation"]}
{"id": "C10", "title": "PLCP and LCP arrays hold longest common prefix lengths", "statement": "For every non-empty text with suffix array sa, core::compute_plcp / core::compute_lcp give lcp[i] = length of the longest common prefix of the suffixes at sa[i-1] and sa[i] for i >= 1, and lcp[0] = the longest common prefix of the lexicographically first and last suffix, which is 0 unless text is a power of one letter; the linear-time carry of the length never makes a value too large.", "quantifier": "every non-empty text, with or without sentinel, and every rank i", "why_tests_cant": "amortized carry-over between iterations is only right because of an order-theoretic lemma over all texts; the cyclic treatment of the first suffix is an untested corner", "anchors": ["src/core.rs:compute_plcp", "src/core.rs:compute_lcp", "src/core.rs:compute_phi"]}
{"id": "C11", "title": "Previous/next smaller value arrays", "statement": "For every non-empty array of fewer than 2^32 entries, core::compute_psv(arr)[i] is the largest index j < i with arr[j] < arr[i] and core::compute_nsv(arr)[i] the smallest index j > i with arr[j] < arr[i], or u32::MAX if there is none; the pointer-jumping loops terminate and do not index out of range; both panic on the empty array.", "quantifier": "every array over every total order, every index", "why_tests_cant": "nearest-smaller is a claim about all earlier/later indices of all arrays; the pointer chasing uses the partially built array", "anchors": ["src/core.rs:compute_psv", "src/core.rs:compute_nsv"]}
{"id": "C12", "title": "Suffix-array BWT is the last column of the rotation matrix", "statement": "For every text that ends with a zero byte and has no other zero byte, core::bwt_from_text_by_sa(text) equals core::bwt_by_matrix_naive(text); it is a rearrangement of text; it panics on the empty text and on every text with a zero byte before the last position.", "quantifier": "every byte text", "why_tests_cant": "relates two differently defined orders (suffixes vs rotations) on all texts", "anchors": ["src/core.rs:bwt_from_text_by_sa", "src/core.rs:bwt_by_matrix_naive", "src/core.rs:bwt_from_sa"]}
{"id": "C13", "title": "Matrix BWT depends only on the conjugacy class", "statement": "core::bwt_by_matrix_naive(text) is a rearrangement of text, and equals core::bwt_by_matrix_naive(u) for every rotation u of text; conversely texts with equal matrix BWT are rotations of one another.", "quantifier": "every pair of texts over every totally ordered alphabet", "why_tests_cant": "injectivity up to rotation quantifies over all pairs of texts", "anchors": ["src/core.rs:bwt_by_matrix_naive"]}
{"id": "C14", "title": "Sentinel BWT loses no information", "statement": "If two zero-free texts, each extended by a zero byte, have the same core::bwt_from_text_by_sa output, then the texts are equal: the output of the bwt tool (default flags) determines its input.", "quantifier": "every pair of zero-free byte texts", "why_tests_cant": "injectivity over all pairs of inputs", "anchors": ["src/core.rs:bwt_from_text_by_sa", "src/bin/bwt.rs:main"]}
{"id": "C15", "title": "The fast matrix BWT equals the naive one", "statement": "For every non-empty zero-free byte text, core::bwt_by_matrix(text) (least rotation + sentinel + suffix array) returns without panic exactly core::bwt_by_matrix_naive(text); for every text containing a zero byte it panics.", "quantifier": "every byte text, primitive or not", "why_tests_cant": "equality of two algorithms over all texts; hinges on minimal rotations and on ties between equal rotations of powers", "anchors": ["src/core.rs:bwt_by_matrix", "src/core.rs:bwt_by_matrix_naive", "src/core.rs:lyndon_conjugate", "src/core.rs:bwt_from_text_by_sa"]}
{"id": "C16", "title": "The bwt and count_r tools succeed on every zero-free input whatever the flags", "statement": "For every non-empty zero-free input the bwt and count_r tools produce the rotation-matrix BWT (with or without the appended dollar) for every combination of --use-matrix and --no-dollar.", "quantifier": "every zero-free input and every flag combination", "why_tests_cant": "the failing region starts only at length 99 and depends on a flag combination no test runs", "anchors": ["src/bin/bwt.rs:main", "src/bin/count_r.rs:main", "src/core.rs:bwt_by_matrix"]}
{"id": "C17", "title": "Bijective BWT is a bijection", "statement": "core::bbwt_naive does not panic on non-empty texts, returns a rearrangement of text, and is injective: bbwt_naive(s) = bbwt_naive(t) implies s = t; every non-empty string is the output for exactly one text. On the empty text it panics.", "quantifier": "every non-empty text and every pair of texts over every totally ordered alphabet", "why_tests_cant": "bijectivity quantifies over all pairs of texts and all outputs", "anchors": ["src/core.rs:bbwt_naive", "src/core.rs:duval"]}
{"id": "C18", "title": "BBWT of a Lyndon word is its BWT", "statement": "If text is a Lyndon word then core::bbwt_naive(text) = core::bwt_by_matrix_naive(text).", "quantifier": "every Lyndon word over every ordered alphabet", "why_tests_cant": "infinitely many Lyndon words", "anchors": ["src/core.rs:bbwt_naive", "src/core.rs:bwt_by_matrix_naive", "src/unfinished/parallel.rs"]}
{"id": "C19", "title": "LZ77 parse decodes to the text", "statement": "For every non-empty byte text, compute_lz77 run on the arrays built as in the count_z tool returns without panic factors that decode_lz77 turns back into exactly the text (the tool's debug assertion never fires).", "quantifier": "every non-empty byte text (of at most 2^31-1 bytes)", "why_tests_cant": "round trip over all texts through six auxiliary arrays; tests only use binary strings of at most 11 letters with a sentinel", "anchors": ["src/bin/count_z.rs:compute_lz77", "src/bin/count_z.rs:decode_lz77", "src/core.rs:compute_psv", "src/core.rs:compute_nsv", "src/core.rs:compute_lcp"]}
{"id": "C20", "title": "LZ77 parse is the greedy longest-previous-factor parse", "statement": "Each factor computed by compute_lz77 at text position i is a literal exactly if the letter text[i] does not occur before i, and otherwise copies from an earlier start (overlap allowed) with the maximal length any earlier start offers.", "quantifier": "every non-empty text and every factor", "why_tests_cant": "maximality over all earlier positions of all texts; depends on the nearest smaller suffixes being optimal", "anchors": ["src/bin/count_z.rs:compute_lz77"]}
{"id": "C21", "title": "LZ77 factor count is minimal", "statement": "The number of factors reported by count_z is the minimum over all parses of the text into single letters and copies from earlier starting positions (overlap allowed).", "quantifier": "every non-empty text and every competing parse", "why_tests_cant": "minimality over all parses", "anchors": ["src/bin/count_z.rs:compute_lz77", "src/bin/count_z.rs:main"]}
{"id": "C22", "title": "Lexparse factors determine the text", "statement": "For every non-empty text, compute_lexparse on the arrays built as in count_lexparse returns factors whose lengths sum to n, each copy factor (pos,len) at i satisfying text[pos..pos+len) = text[i..i+len), and the factor list determines the text uniquely.", "quantifier": "every non-empty byte text", "why_tests_cant": "unique decodability quantifies over all texts consistent with the factors; the cyclic phi entry breaks it only for one-letter texts", "anchors": ["src/bin/count_lexparse.rs:compute_lexparse", "src/bin/enumerate_lexparse.rs:compute_lexparse", "src/core.rs:compute_phi", "src/core.rs:compute_plcp"]}
{"id": "C23", "title": "get_mus returns exactly the minimal unique substrings", "statement": "For every zero-free text T extended by a zero byte, get_mus on its sa/isa/lcp arrays does not panic and returns, in increasing order of position, exactly the pairs (start, length) of the substrings of T that occur exactly once in T and all of whose proper substrings occur at least twice.", "quantifier": "every zero-free text and every substring of it", "why_tests_cant": "exactness quantifies over all substrings of all texts; the test looks at Fibonacci words only", "anchors": ["src/bin/mus.rs:get_mus", "src/core.rs:compute_lcp"]}
{"id": "C24", "title": "The mus tool reports the minimal unique substrings of its input", "statement": "For every non-empty zero-free input file, the mus tool prints exactly the minimal unique substrings of the file and does not panic.", "quantifier": "every non-empty zero-free input file", "why_tests_cant": "the tool, unlike the tests, does not append the sentinel get_mus relies on; failure depends on the input's suffix structure", "anchors": ["src/bin/mus.rs:main", "src/bin/mus.rs:get_mus"]}
{"id": "C25", "title": "String attractor check is exact", "statement": "For every non-empty zero-free text T (extended by a zero byte) and every list of positions in range, is_attractor returns true exactly if every non-empty substring of T has an occurrence in T that contains one of the positions. If T is ASCII it returns false otherwise and never panics; for arbitrary bytes it may panic only when the positions are not an attractor (while printing an uncovered substring that is not UTF-8), so a returned verdict is always right.", "quantifier": "every zero-free text, every list of positions, every substring", "why_tests_cant": "quantifies over all substrings of all texts and all position sets; the implementation looks only at suffix-tree edges", "anchors": ["src/bin/is_stringattractor.rs:is_attractor", "src/bin/is_stringattractor.rs:lcp_intervals"]}
{"id": "C26", "title": "k-th order entropy partitions positions by context", "statement": "For every zero-free text extended by a zero byte and every order k >= 1, kth_order_entropy equals (up to floating point rounding) 1/n times the sum over all contexts w of length k of (number of occurrences of w followed by a letter) times the zero-order entropy of the string of letters following w; zero_order_entropy is the sum over letters of (n_c/n) log2(n/n_c).", "quantifier": "every zero-free text with sentinel, every order k >= 1", "why_tests_cant": "the grouping by LCP runs must coincide with the grouping by equal contexts for every text and order", "anchors": ["src/bin/entropy.rs:kth_order_entropy", "src/bin/entropy.rs:zero_order_entropy"]}
{"id": "C27", "title": "The two entropy tools agree", "statement": "For every zero-free text extended by a zero byte and every order 1..7 with at least that many bytes, entropy_via_kmer_counting and kth_order_entropy compute the same value (in exact arithmetic), and the reported length is the text length. entropy_via_kmer_counting returns if and only if the text has at least as many bytes as the order and the order is in 1..7, or the order is 8 and the text has exactly eight bytes (then it returns 0).", "quantifier": "every zero-free text with sentinel, orders 1..7", "why_tests_cant": "equality of two algorithms (hash counting of packed 64-bit k-mers and suffix array grouping) over all texts", "anchors": ["src/bin/entropy_kmer.rs:entropy_via_kmer_counting", "src/bin/entropy.rs:kth_order_entropy"]}
{"id": "C28", "title": "Number of runs", "statement": "core::number_of_runs(reader) returns 0 for an empty reader and otherwise 1 plus the number of adjacent positions with different bytes among the bytes delivered before the first end-of-input or error; equivalently the number of maximal blocks of equal bytes.", "quantifier": "every byte sequence, followed by end of input or by a read error", "why_tests_cant": "infinite input domain; reader failures at every position", "anchors": ["src/core.rs:number_of_runs", "src/io.rs:read_char"]}
{"id": "C29", "title": "Alphabet size count", "statement": "count_sigma(text) returns the number of distinct bytes of text.", "quantifier": "every byte text", "why_tests_cant": "the single failing class (all 256 byte values present, overflowing the u8 counter) is a corner no test reaches; the positive claim is over all texts", "anchors": ["src/bin/count_sigma.rs:count_sigma"]}
{"id": "C30", "title": "Move-to-front is lossless", "statement": "The mtf tool encodes every byte sequence without panic, one output byte per input byte, and the input can be recovered from the output by the move-to-front decoder.", "quantifier": "every byte sequence", "why_tests_cant": "round trip over all inputs and list states; the initial table omits byte 255", "anchors": ["src/bin/mtf.rs:mtf", "src/bin/mtf.rs:mtf_vector"]}
{"id": "C31", "title": "Run-length encoding is lossless or fails loudly", "statement": "The rle tool writes for every maximal run the pair (byte, length-1); whenever it finishes without panic, expanding the pairs gives back the input; it finishes without panic exactly if every run but the last has at most 255 bytes and the last at most 256.", "quantifier": "every byte sequence, in the overflow-checked build", "why_tests_cant": "round trip over all inputs, run lengths around the u8 boundary in every position", "anchors": ["src/bin/rle.rs:rle"]}
{"id": "C32", "title": "Human-readable run-length encoding", "statement": "rle --human prints for each maximal run \"(c,l)\" with c the character and l the decimal run length; for inputs whose runs are at most 255 long it does not panic and two different inputs print different texts; a run of 256 or more panics in the overflow-checked build.", "quantifier": "every byte sequence", "why_tests_cant": "unique decodability over all pairs of inputs, including bytes that look like delimiters", "anchors": ["src/bin/rle.rs:rle_text"]}
{"id": "C33", "title": "Zero-only run-length encoding is lossless", "statement": "rle --onlyzero: two different inputs (with runs of '0' shorter than 256) never produce the same output.", "quantifier": "every pair of byte sequences", "why_tests_cant": "injectivity over all pairs of inputs; the function has no test", "anchors": ["src/bin/rle.rs:rle_zero"]}
{"id": "C34", "title": "Escaping round-trips and removes the escaped bytes", "statement": "For every escape symbol, from and to lists passing the tool's assertions with pairwise distinct to symbols, escape of any input followed by --is-reversion (both with prefix length at least the input length) returns the input; the escaped stream contains none of the from symbols.", "quantifier": "every input, escape symbol and symbol lists meeting the checks", "why_tests_cant": "round trip over all inputs and all symbol tables", "anchors": ["src/bin/escape.rs:main"]}
{"id": "C35", "title": "escape with default prefix length processes the whole input", "statement": "Run as in the README (no --prefixlength), escape writes the escaped form of its whole input.", "quantifier": "every non-empty input", "why_tests_cant": "a claim on the tool's default over all inputs; there is no test of the tool", "anchors": ["src/bin/escape.rs:main", "README.md"]}
{"id": "C36", "title": "Lyndon word generator enumerates exactly the Lyndon words", "statement": "Iterating core::LyndonWordGenerator::new(n, s) with 1 <= s <= 256 yields, in strictly increasing lexicographic order and each exactly once, all Lyndon words of length 1..n over {0,...,s-1}, then None forever; it never panics.", "quantifier": "every maximal length n and alphabet size 1 <= s <= 256, every number of calls", "why_tests_cant": "completeness and order over whole unbounded enumerations", "anchors": ["src/core.rs:LyndonWordGenerator", "src/bin/lyndonwords.rs:main"]}
{"id": "C37", "title": "Binary string generator enumerates each binary string of the length once, in lexicographic order", "statement": "Iterating core::BinaryStringGenerator::new(len) yields all 2^len binary strings of that length in lexicographic order, each once, then ends.", "quantifier": "every length 0 <= len <= 63 and every number of calls", "why_tests_cant": "claim about complete enumerations of unbounded size; no test uses the generator", "anchors": ["src/core.rs:BinaryStringGenerator"]}
{"id": "C38", "title": "Conjugate iterator", "statement": "core::ConjugateIterator::new(text) yields exactly n items, the i-th being text[i..] ++ text[..i], then None forever.", "quantifier": "every text and every number of calls", "why_tests_cant": "histories of unbounded length", "anchors": ["src/core.rs:ConjugateIterator"]}
{"id": "C39", "title": "Test string generator yields sentinel-terminated texts", "statement": "core::RandomStringGenerator::new(a..b, l) with 1 <= l <= 7, a < 2^63 and b < usize::MAX never panics, is deterministic (it never consults the random source), yields exactly the items for rounds a+1, a+2, ... up to the first round r with 2r >= b, then None forever; every yielded text ends with a zero byte, contains no other zero byte, and uses letters 1..2^l only, namely the inner base-2^l digits of the round number plus one.", "quantifier": "every range, every alphabet exponent 1..7, every number of calls", "why_tests_cant": "histories of unbounded length; all tests of the library assume it", "anchors": ["src/core.rs:RandomStringGenerator", "src/core.rs:bit_size"]}
{"id": "C40", "title": "enumerate prints all strings in lexicographic order", "statement": "The enumerate tool with alphabet size 1 <= a <= 26 and lengths 1 <= min <= max prints, for each length in order, every string over the first a letters exactly once, in lexicographic order; invalid arguments print nothing and exit with 1.", "quantifier": "every alphabet size, every length range", "why_tests_cant": "complete enumerations of unbounded size", "anchors": ["src/bin/enumerate.rs:enumerate_for_length", "src/bin/enumerate.rs:main"]}
{"id": "C41", "title": "k-mer generator yields every string once", "statement": "The base-sigma digit generators of generator_kmer and enumerate_lexparse yield every string of the given length over the first sigma letters exactly once.", "quantifier": "every length and alphabet size for which sigma^length fits in usize", "why_tests_cant": "complete enumerations of unbounded size", "anchors": ["src/bin/generator_kmer.rs:main", "src/bin/enumerate_lexparse.rs:main"]}
{"id": "C42", "title": "Fibonacci words and numbers", "statement": "word::fibonacci_number(k) is the Fibonacci number F(k+2); word::fibonacci_word(k) is the word f_k with f_0=a, f_1=ab, f_{k+1}=f_k f_{k-1}, of length fibonacci_number(k), equals the k-fold iteration of a->ab, b->a on a, and no write leaves the allocated buffer.", "quantifier": "every order k for which the numbers fit in usize", "why_tests_cant": "equality of an in-place generator with the recursive definition for all orders; tests stop at 15", "anchors": ["src/word.rs:fibonacci_number", "src/word.rs:fibonacci_word", "src/word.rs:fibonacci_morphism", "src/word.rs:iterate_general_morphism"]}
{"id": "C43", "title": "Thue-Morse word", "statement": "word::thuemorse_word(k) has length 2^k, letter i is 'a' if i has an even number of one bits and 'b' otherwise, and it equals the k-fold iteration of a->ab, b->ba on a; it never panics for k <= 62 (from k = 63 on it panics).", "quantifier": "every order k <= 62, every position", "why_tests_cant": "all orders and positions; tests stop at order 9", "anchors": ["src/word.rs:thuemorse_word", "src/word.rs:thuemorse_morphism", "src/word.rs:iterate_2morphism"]}
{"id": "C44", "title": "Kolakoski word", "statement": "word::kolakoski_word(k) starts with bb (for every k), consists of complete runs whose lengths (a=1, b=2) spell a prefix of the word itself, each word is a prefix of the next order's word; no index leaves the buffer and the unsafe set_len never exceeds the buffer's initialized length.", "quantifier": "every order k", "why_tests_cant": "self-description and memory safety for all orders", "anchors": ["src/word.rs:kolakoski_word"]}
{"id": "C45", "title": "Period-doubling word and generic morphism iteration", "statement": "word::period_doubling_word(k) has length 2^k and letter i is 'b' exactly if the exponent of 2 in i+1 is odd; in general iterating a 2-uniform morphism with image of a equal to ab by the in-place method gives the k-fold iterate of the morphism on a, and iterate_general_morphism gives the k-fold iterate for every non-erasing morphism with image of a starting with a and longer than 1.", "quantifier": "every order k, every position, every such morphism", "why_tests_cant": "all orders and all morphisms", "anchors": ["src/word.rs:period_doubling_word", "src/word.rs:iterate_2morphism", "src/word.rs:iterate_general_morphism", "src/word.rs:iterate_general_morphism_with_startsymbol"]}
{"id": "C46", "title": "Paperfolding words", "statement": "word::quaternary_paperfolding_word(i) is the i-fold iterate of d->db, b->cb, c->da, a->ca on d and never hits its panic branch; word::paperfolding_word(i) has length 2^(i+1) and its j-th symbol (counting from 1) is '1' exactly if the odd part of j is congruent to 1 modulo 4.", "quantifier": "every order i, every position", "why_tests_cant": "all orders and positions; the test checks 99 symbols", "anchors": ["src/word.rs:quaternary_paperfolding_word", "src/word.rs:paperfolding_word", "src/word.rs:quaternary_to_binary"]}
{"id": "C47", "title": "Binary de Bruijn word", "statement": "word::binary_debruijn_word(k) terminates and returns a word of length 2^(k+1) in which, read cyclically, every binary word of length k+1 occurs exactly once.", "quantifier": "every order k", "why_tests_cant": "termination and coverage for all orders; the test checks only that windows do not repeat, which shorter wrong outputs also satisfy", "anchors": ["src/word.rs:binary_debruijn_word", "src/word.rs:is_necklace"]}
{"id": "C48", "title": "is_necklace decides necklaces", "statement": "word::is_necklace(text, n) returns true exactly if text is lexicographically not larger than any of its rotations.", "quantifier": "every non-empty text", "why_tests_cant": "exactness over all texts and rotations; the repository's own test asserts a false case", "anchors": ["src/word.rs:is_necklace"]}
{"id": "C49", "title": "Characteristic word of the powers of two", "statement": "word::power2_sequence(k) has length 2^k and its j-th symbol (counting from 1) is 'b' if j is a power of two and 'a' otherwise.", "quantifier": "every order k and position j", "why_tests_cant": "all orders and positions; no test", "anchors": ["src/word.rs:power2_sequence"]}
{"id": "C50", "title": "Tribonacci words and numbers", "statement": "word::tribonacci_word(k) is the word t_k with t_0=a, t_1=ab, t_2=abac, t_{k+3}=t_{k+2} t_{k+1} t_k, the k-fold iterate of a->ab, b->ac, c->a, and its length is word::tribonacci_number(k).", "quantifier": "every order k for which the numbers fit in usize", "why_tests_cant": "all orders; tests stop at 15", "anchors": ["src/word.rs:tribonacci_word", "src/word.rs:tribonacci_number", "src/word.rs:tribonacci_morphism"]}
{"id": "C51", "title": "Ternary Thue-Morse variant", "statement": "word::vtm_word(k) is the k-fold iterate of a->abc, b->ac, c->b on a, for every k.", "quantifier": "every order k", "why_tests_cant": "all orders; the size hint is computed in 32-bit arithmetic and breaks at k=30", "anchors": ["src/word.rs:vtm_word", "src/word.rs:vtm_morphism"]}
{"id": "C52", "title": "Lyndon factors of the Fibonacci word", "statement": "word::fibonacci_lyndonfactor(k) is a Lyndon word, strictly smaller than the one for k-1, and the concatenation of those for 0..k is a prefix of the infinite Fibonacci word: it is the k-th Lyndon factor of that word.", "quantifier": "every order k up to the size hint's 32-bit limit", "why_tests_cant": "all orders; tests stop at 2", "anchors": ["src/word.rs:fibonacci_lyndonfactor", "src/word.rs:fibonacci_lyndonfactor_morphism"]}
{"id": "C53", "title": "Prefix reading", "statement": "Reading a file with prefix length p returns its first min(p, size) bytes if p > 0 and the whole file if p = 0; reading stdin with p > 0 returns the first p bytes and panics if fewer arrive; with p = 0 it returns everything.", "quantifier": "every file content, every stdin content, every p", "why_tests_cant": "all contents and prefix lengths, two code paths with different short-input behaviour", "anchors": ["src/io.rs:file2byte_vector", "src/io.rs:stdin2byte_vector", "src/io.rs:file_or_stdin2byte_vector", "src/io.rs:read_char"]}
{"id": "C54", "title": "reverse is a byte-wise involution", "statement": "The reverse tool outputs the bytes of the (prefix of the) input in reverse order; applying it twice restores the input.", "quantifier": "every byte sequence", "why_tests_cant": "all inputs", "anchors": ["src/bin/reverse.rs:main"]}
{"id": "C55", "title": "lyndonfactorization output file contains the factors", "statement": "For every non-empty input, the factor bodies written to the output file are, in order, the Lyndon factors of the input, except that a last factor ending with a zero byte is dropped when it is not the only factor.", "quantifier": "every non-empty input", "why_tests_cant": "all inputs", "anchors": ["src/bin/lyndonfactorization.rs:main"]}
{"id": "C56", "title": "randomstring respects length and alphabet bound", "statement": "Whatever the random source delivers, if randomstring finishes it has written exactly the requested number of characters, all of them among those sampled, with at most alphabet_size distinct ones when alphabet_size > 0.", "quantifier": "every stream of random samples, every length and alphabet size", "why_tests_cant": "all random streams", "anchors": ["src/bin/randomstring.rs:main"]}
{"id": "C57", "title": "Parallel statistics do not depend on the schedule", "statement": "In unfinished/parallel.rs main, whatever the interleaving of the four worker threads, when all have finished every generated word has been processed exactly once: the final statistics table and total counter equal those of a sequential run.", "quantifier": "every interleaving of the worker threads' lock-protected steps, every word source", "why_tests_cant": "all schedules", "anchors": ["src/unfinished/parallel.rs:main"]}
{"id": "C58", "title": "max_lyndon_word keeps the best witness and cannot deadlock", "statement": "In unfinished/parallel.rs max_lyndon_word, under every interleaving the recorded best text has the largest run difference seen so far for its length, and no interleaving blocks all threads forever.", "quantifier": "every interleaving of the worker threads", "why_tests_cant": "all schedules; the failure needs a specific interleaving between releasing the read locks and taking the write locks, or of two lock acquisitions in opposite order", "anchors": ["src/unfinished/parallel.rs:max_lyndon_word"]}
{"id": "C59", "title": "Distinct Lyndon factor count", "statement": "number_distinct_lyndon_factors(text) is the number of different words among the Lyndon factors of text.", "quantifier": "every text", "why_tests_cant": "all texts; the comparison of equally long neighbours skips the last letter", "anchors": ["src/unfinished/parallel.rs:number_distinct_lyndon_factors"]}
{"id": "C60", "title": "bit_size is the binary length", "statement": "core::bit_size(i) is the number of binary digits of i: for every b, bit_size(i) <= b exactly if i < 2^b.", "quantifier": "every 64-bit unsigned integer i and every b", "why_tests_cant": "the equivalence ranges over all 2^64 values of i; tests sample a few", "anchors": ["src/core.rs:bit_size"]}
{"id": "C64", "title": "Fibonacci words have an attractor of size two", "statement": "For every order i >= 3, is_attractor accepts fibonacci_word(i) (with sentinel) together with the two positions fibonacci_number(i-1)-1 and fibonacci_number(i-1)-2: every substring of the word has an occurrence crossing one of them.", "quantifier": "every order (the repository's own test samples orders 3..15), every substring of the word", "why_tests_cant": "all orders and, in each, quadratically many substrings of an exponentially long word", "anchors": ["src/bin/is_stringattractor.rs:is_attractor", "src/bin/is_stringattractor.rs:test_attractor_fibonacci_attractor", "src/word.rs:fibonacci_word", "src/word.rs:fibonacci_number"]}
{"id": "C61", "title": "BWT of even Fibonacci words has two runs", "statement": "For every i >= 1, bwt_from_text_by_sa(fibonacci_word(2i)) consists of all its letters b followed by all its letters a, so number_of_runs returns 2; for every odd order from 3 on number_of_runs returns at least 4.", "quantifier": "every order (the repository's own test samples i = 1..7)", "why_tests_cant": "infinitely many orders with exponentially growing words", "anchors": ["src/core.rs:bwt_from_text_by_sa", "src/core.rs:number_of_runs", "src/word.rs:fibonacci_word", "src/tests/core_test.rs:test_bwt_from_text_by_sa"]}
{"id": "C62", "title": "Fibonacci words have exactly two minimal unique substrings", "statement": "For every order i >= 4, get_mus on the arrays of fibonacci_word(i) with sentinel returns exactly [(F(i-2)-1, F(i-3)), (F(i-1)-1, F(i-2))] where F = fibonacci_number.", "quantifier": "every order (the repository's own test samples 4..15)", "why_tests_cant": "infinitely many orders with exponentially growing words", "anchors": ["src/bin/mus.rs:get_mus", "src/bin/mus.rs:test_mus_fibonacci", "src/word.rs:fibonacci_word", "src/word.rs:fibonacci_number"]}
{"id": "C63", "title": "Period-doubling words have an attractor of size two", "statement": "For every i >= 5, is_attractor accepts period_doubling_word(i-1) (with sentinel) with the positions 3*2^(i-4)-1 and 3*2^(i-3)-1.", "quantifier": "every order (the repository's own test samples 5..15) and every substring", "why_tests_cant": "infinitely many orders, exponentially long words", "anchors": ["src/bin/is_stringattractor.rs:is_attractor", "src/bin/is_stringattractor.rs:test_attractor_period_doubling", "src/word.rs:period_doubling_word"]}
{"id": "C65", "title": "LZ77 factor ends are accepted as an attractor", "statement": "For every non-empty zero-free text, the last positions of the factors found by count_z form a string attractor: is_attractor returns true for them.", "quantifier": "every text", "why_tests_cant": "relates two tools on all texts and, in each, all substrings", "anchors": ["src/bin/count_z.rs:compute_lz77", "src/bin/is_stringattractor.rs:is_attractor"]}
{"id": "C66", "title": "All Burrows-Wheeler variants agree on the Lyndon conjugate", "statement": "For every non-empty zero-free text, lyndon_conjugate returns the start of its least rotation L, and one and the same string is the matrix BWT of the text and of L, the bijective BWT of L, the suffix-array BWT of L, and the suffix-array BWT of L followed by the sentinel once the sentinel is removed.", "quantifier": "every zero-free text, primitive or not, and every correct suffix sorter", "why_tests_cant": "an equality of four algorithms over all texts; the repository only states it as a TODO", "anchors": ["src/unfinished/parallel.rs:TODO at line 455", "src/core.rs:bwt_by_matrix_naive", "src/core.rs:bbwt_naive", "src/core.rs:bwt_from_text_by_sa", "src/core.rs:lyndon_conjugate"]}
{"id": "C67", "title": "Filters write their result into the output file and touch nothing else", "statement": "Run from an existing file into a different creatable file, mtf, rle, reverse, escape and bwt change only the output file: decoding it gives back the input file (mtf without byte 255, rle when it succeeds, escape via --revert), reverse writes the reversed prefix, bwt the matrix BWT of the content with sentinel; rle --human wins over --onlyzero; without file names they read stdin and append to stdout.", "quantifier": "every file system content, names, flags and input", "why_tests_cant": "ranges over all inputs and all file system states; no main function is tested in the repository", "anchors": ["src/bin/mtf.rs:main", "src/bin/rle.rs:main", "src/bin/reverse.rs:main", "src/bin/escape.rs:main", "src/bin/bwt.rs:main", "src/io.rs:stream_or_stdin", "src/io.rs:stream_or_stdout"]}
{"id": "C68", "title": "In-place use and failing runs do not lose data", "statement": "Given the same file as input and output, a filter replaces the content by its transform; and a run that fails leaves the files as they were.", "quantifier": "every filter, file content and kind of failure", "why_tests_cant": "ranges over all contents and failure points; depends on the order in which files are opened", "anchors": ["src/bin/mtf.rs:main", "src/bin/rle.rs:main", "src/bin/reverse.rs:main", "src/bin/escape.rs:main", "src/bin/bwt.rs:main", "src/bin/word.rs:main"]}
{"id": "C69", "title": "The word tool writes the word it is asked for", "statement": "word --name N -k K -o F makes the content of F exactly the word N of order K (Fibonacci, Fibonacci Lyndon factor, Tribonacci, Kolakoski, Thue-Morse, period doubling, paper folding, quaternary paper folding, binary de Bruijn, powers of two, ternary Thue-Morse variant) and changes nothing else, for every order within the limits of the generators.", "quantifier": "every word name and order", "why_tests_cant": "unboundedly many orders with exponentially long words; the dispatch has no test", "anchors": ["src/bin/word.rs:main", "src/bin/word.rs:WordName"]}
{"id": "C70", "title": "Exit status of is_stringattractor", "statement": "On a non-empty zero-free file the tool exits with 1 exactly if a position lies behind the sentinel, otherwise with 0 exactly if the positions are a string attractor of the content and, for ASCII files, with 2 exactly if they are not.", "quantifier": "every file content and list of positions", "why_tests_cant": "all texts, all position lists, all substrings", "anchors": ["src/bin/is_stringattractor.rs:main", "src/bin/is_stringattractor.rs:is_attractor"]}
{"id": "C71", "title": "Result lines of count_sigma, count_runs, entropy and entropy_kmer", "statement": "The numbers printed are those of the requested prefix: its length and number of different bytes (fewer than 256), its number of maximal runs, and for the entropy tools the length with sentinel and the empirical entropy of the content with sentinel, the same for both tools for orders 1 to 7; entropy_kmer fails for other orders and for orders above the length.", "quantifier": "every file content, prefix length and order", "why_tests_cant": "all inputs and orders; compares two independent programs", "anchors": ["src/bin/count_sigma.rs:main", "src/bin/count_runs.rs:main", "src/bin/entropy.rs:main", "src/bin/entropy_kmer.rs:main"]}
{"id": "C72", "title": "The pipeline bwt | mtf | rle is lossless or fails loudly", "statement": "For every zero-free input without byte 255, either rle (overflow-checked build) reports a failure, which needs a run of more than 255 equal move-to-front codes, or the input can be recovered from the final output.", "quantifier": "every input", "why_tests_cant": "injectivity over all inputs of a composition of three programs", "anchors": ["src/bin/bwt.rs:main", "src/bin/mtf.rs:main", "src/bin/rle.rs:main"]}
{"id": "C73", "title": "The factor files of count_z and count_lexparse determine the text", "statement": "With an output file given, count_z (on a non-empty file) writes one record (pos,len) per factor of a greedy LZ77 parse, in text order, reports their number, changes nothing else, and the file determines the text. Likewise a non-empty text and a text with two different letters for which count_lexparse writes the same file are equal.", "quantifier": "every non-empty file content and file-system state", "why_tests_cant": "injectivity over all texts", "anchors": ["src/bin/count_z.rs:main", "src/bin/count_lexparse.rs:main"]}
{"id": "C74", "title": "The README pipeline escape -f 0 -t 255 -e 254 | count_r", "statement": "On every input, zero bytes included, the pipeline recommended by the README succeeds and count_r counts the BWT runs of an injective escaping of the input that contains no zero byte.", "quantifier": "every input of bytes", "why_tests_cant": "all inputs, composition of two programs", "anchors": ["README.md", "src/bin/escape.rs:main", "src/bin/count_r.rs:main"]}
{"id": "C75", "title": "probe_main prints exactly the Lyndon words whose BWT no conjugate's bijective BWT beats", "statement": "For every length bound, probe_main of unfinished/parallel.rs ends without a panic and prints, in lexicographic order, exactly one line for every binary Lyndon word up to that length whose BWT has at least 10 runs and none of whose rotations has a bijective BWT with fewer runs; on every line the best conjugate shown is the word itself and both run numbers agree.", "quantifier": "every length bound and every binary Lyndon word with all its rotations", "why_tests_cant": "all words and rotations; the equality of the two printed numbers is a theorem about the bijective BWT", "anchors": ["src/unfinished/parallel.rs:probe_main", "src/unfinished/parallel.rs:binary_vector_to_str"]}
{"id": "C76", "title": "enumerate_lexparse ends with the largest effect of renaming letters", "statement": "enumerate_lexparse prints lines with non-decreasing distances; each line shows two renamings of one text whose lexparse sizes differ by exactly the distance, and the distance on the last line is the largest difference that two renamings of any text of that length over that alphabet can have.", "quantifier": "every alphabet of 1 to 26 letters, every text length with at most 2^64-1 texts, every order in which permutations are delivered", "why_tests_cant": "maximum over all texts and all pairs of renamings", "anchors": ["src/bin/enumerate_lexparse.rs:main", "src/bin/enumerate_lexparse.rs:compute_lexparse"]}
{"id": "C77", "title": "The report of lyndonfactorization determines the text", "statement": "With an output file given, lyndonfactorization on a non-empty file writes the listing of the Lyndon factors there (also in place) and changes nothing else; two non-empty texts with the same listing differ at most in one final zero byte, even if the texts contain line breaks and header-like strings.", "quantifier": "every pair of non-empty texts, every file-system state and prefix length", "why_tests_cant": "injectivity over all texts, including texts that imitate record headers", "anchors": ["src/bin/lyndonfactorization.rs:main"]}
{"id": "C78", "title": "lyndonfactorization reports the length of the text", "statement": "The length on the result line of lyndonfactorization is the length of the text that was factorized, as in the other tools.", "quantifier": "every input and prefix length", "why_tests_cant": "all inputs", "anchors": ["src/bin/lyndonfactorization.rs:main"]}
{"id": "C79", "title": "Thue-Morse words are overlap-free", "statement": "For every order it supports (k <= 62), thuemorse_word(k) succeeds and the word contains no factor of the form c u c u c with a letter c and a word u; in particular no nonempty word occurs three times in a row.", "quantifier": "for all orders k <= 62, all letters c and all words u", "why_tests_cant": "The words have up to 2^62 letters; no test can examine the factors of the larger ones.", "anchors": ["src/word.rs:thuemorse_word"]}
{"id": "C80", "title": "The ternary Thue-Morse variant is square-free", "statement": "For every order it supports (k <= 29), vtm_word(k) succeeds, has 1 (k = 0) or 3*2^(k-1) letters, its letters tell whether the Thue-Morse word rises (a), stays (b) or falls (c), and no nonempty word occurs twice in a row in it.", "quantifier": "for all orders k <= 29 and all words u", "why_tests_cant": "Square-freeness ranges over all factors of words with up to 805306368 letters.", "anchors": ["src/word.rs:vtm_word", "src/word.rs:vtm_morphism"]}
{"id": "C81", "title": "Attractors and the LZ77 parse bound the substring complexity", "statement": "If is_attractor accepts a set of positions, the text has at most k times as many different substrings of length k as there are different positions, for every k >= 1. Likewise with the number z of factors count_z finds in place of the number of positions; in particular count_sigma never exceeds count_z.", "quantifier": "for all non-empty texts (zero-free for is_attractor), all accepted position sets and all k >= 1", "why_tests_cant": "Ranges over all texts, position sets and substring lengths.", "anchors": ["src/bin/is_stringattractor.rs:is_attractor", "src/bin/count_z.rs:compute_lz77", "src/bin/count_sigma.rs:count_sigma"]}
{"id": "C82", "title": "Borders of the BWT runs are accepted as an attractor", "statement": "For every non-empty zero-free text, the text positions of the first and the last letter of every run of its BWT (as counted by count_r with default flags) are accepted by is_attractor. So a smallest attractor has at most 2r positions, and there are at most 2kr different substrings of length k.", "quantifier": "for all non-empty zero-free texts up to 2^31-2 bytes and all k >= 1", "why_tests_cant": "A relation between three tools that must hold for every text.", "anchors": ["src/bin/count_r.rs:main", "src/bin/is_stringattractor.rs:is_attractor", "src/core.rs:bwt_from_text_by_sa"]}
{"id": "C83", "title": "The substrings is_stringattractor prints", "statement": "The substrings is_stringattractor names as not covered are exactly the uncovered substrings ua (none of whose occurrences contains a given position) at which the text forks: another occurrence of u is followed by another letter or ends the text. Each is named once; every uncovered substring has a named one as a prefix; only if no position is given the sentinel is named, too. The output is exactly one line per named substring followed by the verdict; the tool panics exactly if a named substring is not valid UTF-8.", "quantifier": "for all zero-free files up to 2^31-2 bytes and all position lists", "why_tests_cant": "Soundness and completeness of the report over all texts and position sets.", "anchors": ["src/bin/is_stringattractor.rs:is_attractor", "src/bin/is_stringattractor.rs:main"]}
{"id": "C84", "title": "Laws of the entropies", "statement": "The zero-order entropy of a non-empty text is between 0 and the logarithm of the number of its different letters (hence at most 8), is 0 exactly if the text consists of one letter, and does not change if the text is rearranged. Entropies of higher order never grow with the order: H_{k+1} <= H_k <= ... <= H_1 <= H_0, none is negative, and H_k is 0 exactly if every word of length k determines the letter following it.", "quantifier": "for all non-empty (for k >= 1: zero-free, sentinel-terminated) texts and all k", "why_tests_cant": "Inequalities between values for all texts and all orders.", "anchors": ["src/bin/entropy.rs:zero_order_entropy", "src/bin/entropy.rs:kth_order_entropy"]}
{"id": "C85", "title": "Reverting accepts exactly the escaped streams", "statement": "With symbol lists passing the checks (to symbols pairwise distinct) and a prefix length covering the input, escape --is-reversion succeeds exactly on the inputs that, read from the left, consist of letters other than the escape symbol, doubled escape symbols and pairs of the escape symbol and a to symbol, and its output is what they stand for; on all others it panics at the first escape symbol whose partner is missing or unknown, having written the meaning of the part before. On inputs free of from symbols, escaping the result gives back the input.", "quantifier": "every input and all symbol lists meeting the checks", "why_tests_cant": "exact domain of a partial decoder over all inputs and tables", "anchors": ["src/bin/escape.rs:main"]}
{"id": "C86", "title": "The lex-parse is bounded by the BWT runs", "statement": "For every non-empty zero-free text, the number of factors count_lexparse reports is at most the number of runs count_r reports (default flags) plus the number of different letters, and it is less than twice the number of runs.", "quantifier": "for all non-empty zero-free texts up to 2^31-2 bytes", "why_tests_cant": "An inequality between the results of two tools for every text.", "anchors": ["src/bin/count_lexparse.rs:compute_lexparse", "src/bin/count_r.rs:main", "src/core.rs:bwt_from_text_by_sa"]}
{"id": "C87", "title": "Lex-parse factor ends are accepted as an attractor", "statement": "For every non-empty zero-free text, is_attractor accepts the last positions of the factors count_lexparse finds; there are as many positions as factors.", "quantifier": "for all non-empty zero-free texts up to 2^31-2 bytes", "why_tests_cant": "A relation between two tools that must hold for every text.", "anchors": ["src/bin/count_lexparse.rs:compute_lexparse", "src/bin/is_stringattractor.rs:is_attractor"]}
{"id": "C88", "title": "Closed forms of the k-th order entropy", "statement": "For unary texts c^m (with sentinel) kth_order_entropy returns ((m-k) log2((m+1-k)/(m-k)) + log2(m+1-k))/(m+1), and for alternating texts (ab)^m it returns (f log2((f+1)/f)+log2(f+1))/(2m+1) with f = m - ceil(k/2); more generally, whenever the last k letters determine the next one, the value depends only on the number of earlier occurrences of the final k letters. Orders at least the text length give 0. entropy_kmer returns the same for unary texts up to order 7.", "quantifier": "for all letters, lengths below 2^31-1 and orders k >= 1", "why_tests_cant": "The tests compare a few lengths (40-44, 8-19) and orders; the closed forms must hold for all.", "anchors": ["src/bin/entropy.rs:kth_order_entropy", "src/bin/entropy.rs:test_entropy", "src/bin/entropy_kmer.rs:entropy_via_kmer_counting"]}
{"id": "C89", "title": "Result lines are readable records", "statement": "Every RESULT line printed by count_sigma, count_r, count_z, count_lexparse, lyndonfactorization, entropy, entropy_kmer and mus is the word RESULT followed by blank-separated key=value fields (as promised for sqlplot in the README), and the fields carry the reported values.", "quantifier": "for all inputs, file names and running times", "why_tests_cant": "File names, contents and times are unbounded; a name with a blank or a value containing a blank breaks the record.", "anchors": ["src/bin/count_sigma.rs:main", "src/bin/count_r.rs:main", "src/bin/count_z.rs:main", "src/bin/count_lexparse.rs:main", "src/bin/lyndonfactorization.rs:main", "src/bin/entropy.rs:main", "src/bin/entropy_kmer.rs:main", "src/bin/mus.rs:main", "src/core.rs:get_filename", "README.md"]}
{"id": "C90", "title": "The table of compute_stats.sh holds the announced numbers", "statement": "For every file, compute_stats.sh prints a row whose cells are the values announced by its header: length, alphabet size, LZ77 factors, BWT runs and the entropies of orders 0 to 4.", "quantifier": "for all files, file names and running times", "why_tests_cant": "The numbers are cut out of the result lines by greedy patterns, which must find the right field for every content and name.", "anchors": ["compute_stats.sh", "src/bin/count_sigma.rs:main", "src/bin/count_r.rs:main", "src/bin/count_z.rs:main", "src/bin/entropy.rs:main"]}
{"id": "C91", "title": "gen_artificial.sh creates the 210 benchmark words", "statement": "If the target folder is writable, gen_artificial.sh runs to its end from any state of the file system and then the file name.kk, for each of its ten names and every order from 00 to 20, holds the word of that name and order (for power2 but for the last letter and for binary-de-brujin with distinct windows, see C49 and C47); no other file and no standard output is touched. Without -o, word prints the word and changes no file; if it panics it prints nothing.", "quantifier": "every folder, every prior state of the file system and standard output, every float estimate of the Fibonacci number that is at least F(k+2)-1, every file name outside the 210", "why_tests_cant": "The script is not run by the tests at all, its effect depends on the prior files, and the words of order 20 have up to 2^21 letters.", "anchors": ["gen_artificial.sh", "src/bin/word.rs:main", "src/word.rs"]}
{"id": "C92", "title": "The statistics table of parallel main is complete and aligned", "statement": "For every pattern length and every schedule, the table that main of unfinished/parallel.rs prints after joining the workers reads back, cell by cell, as the number of binary Lyndon words of that length with the row's number of BWT runs and the column's least number of bijective-BWT runs among the rotations; labels are right, all cells have equal width, and the cells add up to the printed total.", "quantifier": "every pattern length up to 23, every number of workers and every interleaving", "why_tests_cant": "all schedules, and the numbers range over all Lyndon words; the row and column 0 and 24 of the array are not printed, so completeness needs bounds on the numbers of runs", "anchors": ["src/unfinished/parallel.rs:main"]}
{"id": "C93", "title": "parallel.rs main: the words reported by the workers", "statement": "When all workers have left their loops, the lines they printed are, in some order, exactly one line for each primitive binary word of the given length whose bijective BWT has at most one run more than the number of factors reported by number_distinct_lyndon_factors; each line shows the transform, the word, the number of runs and that number. The lines do not depend on the schedule except for their order.", "quantifier": "every pattern length 1..24, every number of workers, every interleaving of their steps (with one step per println!)", "why_tests_cant": "all schedules, and the claim ranges over all primitive words of the length although the program enumerates Lyndon words and rotates them", "anchors": ["src/unfinished/parallel.rs:main"]}
{"id": "C94", "title": "parallel.rs max_lyndon_word: the printed reports", "statement": "Whatever the schedule, the output of max_lyndon_word is a sequence of complete reports that do not interleave, exactly one for every multiple of 10000 words reached, in increasing order; in a report the numbers of words add up to total_count, the outcomes printed under length=n are those of all n rotations of the words of length n counted so far, and the text printed under length=n has length n, is a rotation of a binary Lyndon word, and has the printed numbers of runs.", "quantifier": "every number of workers and every interleaving of their steps", "why_tests_cant": "a race between the counter and the check, and interleaved printing, show up only under rare schedules", "anchors": ["src/unfinished/parallel.rs:max_lyndon_word", "src/unfinished/parallel.rs:binary_vector_to_str"]}
{"id": "C95", "title": "The number of Lyndon words", "statement": "For every alphabet size s and every m up to the maximum length, the number L(m) of words of length m that LyndonWordGenerator yields, and that the lyndonwords tool prints, satisfies sum over d|m of d*L(d) = s^m, hence m*L(m) = sum over d|m of mu(d)*s^(m/d); the total that a finished run of parallel main reports for words of length L satisfies the same formula with s = 2, whatever the schedule.", "quantifier": "all maximum lengths, all lengths m up to it, all alphabet sizes 1..256 (tool: 1..159); for the parallel program all lengths 1..24, all numbers of workers, all interleavings", "why_tests_cant": "a counting identity over unboundedly many lengths and alphabet sizes", "anchors": ["src/core.rs:LyndonWordGenerator", "src/bin/lyndonwords.rs:main", "src/unfinished/parallel.rs:main"]}
{"id": "C96", "title": "Exact domains of the core functions, and their results on malformed arrays", "statement": "For arbitrary arguments, not only well-formed ones, the functions of core.rs panic exactly as follows and otherwise return exactly the described value. duval, suffixarray_naive, bwt_by_matrix_naive, border_array and is_primitive never panic (the empty text is reported primitive); lyndon_conjugate, bbwt_naive, compute_psv, compute_nsv and isa_lyndon_factorization panic exactly on the empty input; smallest_period panics exactly on an empty array or a last entry not below the length; bwt_from_sa exactly on an empty text or too short an array; bwt_from_text_by_sa exactly on the empty text and on a zero byte before the last position, bwt_by_matrix exactly on the empty text and on any zero byte; inverse_permutation exactly when an entry is not a valid index or an index does not fit the element type, and otherwise stores the last index of every value (0 for missing values); compute_phi exactly on the empty array or an entry that is no valid index; compute_lcp exactly on unequal lengths or an invalid index; compute_plcp exactly on unequal lengths, whatever phi contains.", "quantifier": "every text, every array of non-negative integers (repetitions, gaps and out-of-range entries included), every pair of lengths", "why_tests_cant": "the tests only pass permutations and matching arrays; the boundary between panicking and returning is a property of all arrays", "anchors": ["src/core.rs:compute_phi", "src/core.rs:inverse_permutation", "src/core.rs:compute_plcp", "src/core.rs:compute_lcp", "src/core.rs:bwt_from_sa", "src/core.rs:smallest_period", "src/core.rs:isa_lyndon_factorization", "src/core.rs:bwt_from_text_by_sa", "src/core.rs:bwt_by_matrix", "src/core.rs:duval"]}
{"id": "C97", "title": "The linear-time functions make linearly many letter comparisons", "statement": "On a text of n letters, duval makes at most 6n calls of the comparison operators of the caller's letter type, lyndon_conjugate at most 12n, border_array and is_primitive at most 2n, compute_plcp at most 2n (for every phi array of the text's length), and compute_psv and compute_nsv at most 2n-2 each; in particular no input makes one of them quadratic.", "quantifier": "every letter type and every text or array of every length (below 2^32 for compute_psv and compute_nsv), every phi array", "why_tests_cant": "a worst-case running time is a statement about all inputs of each length; a benchmark only times some", "anchors": ["src/core.rs:duval", "src/core.rs:lyndon_conjugate", "src/core.rs:is_primitive", "src/core.rs:border_array", "src/core.rs:compute_plcp", "src/core.rs:compute_psv", "src/core.rs:compute_nsv"]}
{"id": "C98", "title": "The printed entropies are accurate in double precision", "statement": "When every floating point operation is rounded to a nearest f64 number and log2 is accurate to one unit in the last place, the zero-th order entropy computed by entropy is within 2^-40 of the exact value, the k-th order entropy within 2^-17 and the k-mer variant within 2^-14 for texts below 2^31 letters, whatever the iteration order of the hash maps; the first two are never negative, no operation overflows, the two tools agree up to 2^-13, and a text with a single letter gives exactly 0. More generally the errors are bounded explicitly in terms of the precision u of the operations and v of the logarithm.", "quantifier": "every text within the limits, every order k, every rounding to nearest (any tie rule), every library logarithm of the stated accuracy, every iteration order of the hash maps", "why_tests_cant": "tests compare with an epsilon on a few texts; accumulated rounding errors depend on the whole input and on the randomised order of the hash map", "anchors": ["src/bin/entropy.rs:zero_order_entropy", "src/bin/entropy.rs:kth_order_entropy", "src/bin/entropy_kmer.rs:entropy_via_kmer_counting"]}
{"id": "C99", "title": "Buffers sized by floating point estimates are large enough", "statement": "When every f64 operation is rounded to a nearest f64 number and powi is computed by repeated squaring, fibonacci_word allocates a buffer of F(k+2)+2 bytes up to a relative error of 2^-42 computed from the rounded constants SQRT_5, GOLDEN_RATIO and PSI by Binet's formula, never indexes outside it and returns the k-th Fibonacci word for every k up to 60 (over four trillion letters); kolakoski_word's buffer length 2^(k+2)+2 is computed without any rounding error for every k up to 50.", "quantifier": "every order k up to the limit, every rounding to nearest (any tie rule)", "why_tests_cant": "tests stop at order 15; the estimate's relative error grows with k and one missing byte panics", "anchors": ["src/word.rs:fibonacci_number_estimate", "src/word.rs:fibonacci_word", "src/word.rs:kolakoski_length_estimate", "src/word.rs:SQRT_5", "src/word.rs:GOLDEN_RATIO", "src/word.rs:PSI"]}
{"id": "C100", "title": "The command lines the tools accept", "statement": "For every tool with options (all but rle) and every list of words, the tool accepts the words exactly if they form a command line of the documented form: options in any order, short or long, values separate, attached or after an equality sign, flags joined in one word, list options repeatable, everything required present, values denoting a number in range or a known word name; and the settings are uniquely determined by the words. Everything else ends with exit status 2 without touching any file or printing anything, except that a request for help or the version ends with status 0; such a request is honoured after every acceptable beginning.", "quantifier": "every tool, every list of words (of any length), every world of files", "why_tests_cant": "the space of command lines is unbounded and mixes spellings, repetition, joined flags and errors; tests try a few lines", "anchors": ["src/bin/*.rs:Args", "src/bin/*.rs:main"]}
{"id": "C101", "title": "The order and spelling of the options does not matter", "statement": "Two accepted command lines of the same tool that make the same settings, in whatever order and spelling, have exactly the same effect on files, standard output and exit status; only the values within a list option keep their order. The fields the program sees are exactly the settings, or the defaults.", "quantifier": "every tool, every two accepted command lines with the same settings, every world", "why_tests_cant": "all permutations and spellings of all option combinations cannot be enumerated", "anchors": ["src/bin/*.rs:Args", "src/bin/*.rs:main"]}
{"id": "C102", "title": "Commands end to end", "statement": "Started with any spelling of a command line that names an input and an output file, reverse writes the reversed file, bwt the Burrows-Wheeler transform of the file with the sentinel, mtf a move-to-front code that decodes to the file, changing no other file, with status 0. is_stringattractor with a file and positions exits with 0 exactly if the positions are an attractor of the file; on ASCII files its status 2 means 'not an attractor', but a rejected command line (for instance a comma between positions) has status 2 as well.", "quantifier": "every spelling of the command line, every file content in the documented domain, every world", "why_tests_cant": "combines all command lines with all file contents", "anchors": ["src/bin/reverse.rs:main", "src/bin/bwt.rs:main", "src/bin/mtf.rs:main", "src/bin/is_stringattractor.rs:main"]}
{"id": "C103", "title": "The command lines of the documentation and the scripts work", "statement": "Every call in README.md, in the help texts and in the shell scripts is accepted by the tool it calls and has the documented meaning.", "quantifier": "every documented call, for every file name, number or list the reader substitutes", "why_tests_cant": "the calls have free parameters; and nobody runs the documentation", "anchors": ["README.md", "gen_artificial.sh", "compute_stats.sh", "src/bin/word.rs:WordName", "src/bin/escape.rs:Args"]}
{"id": "C104", "title": "Every option of rle can be used", "statement": "Every declared option of rle selects its own function, in every build, whatever else is on the command line.", "quantifier": "every command line of rle, both builds", "why_tests_cant": "clap checks clashes of option names only at run time and only in debug builds", "anchors": ["src/bin/rle.rs:Args", "src/bin/rle.rs:main"]}
{"id": "C105", "title": "The command line of enumerate", "statement": "enumerate accepts exactly two or three numbers below 2^64, with at most one -- among them, and prints the words of the lengths between the second and the third number over the first letters, in order, with status 0; out-of-range numbers give status 1 and no output, everything else status 2 and no output (or help on request).", "quantifier": "every list of words", "why_tests_cant": "unbounded space of command lines", "anchors": ["src/bin/enumerate.rs:main"]}
{"id": "C106", "title": "rle in the release build", "statement": "In the release build rle writes (byte, (length - 1) mod 256) for every maximal run and panics exactly if a run that is not the last has a length divisible by 256; the output decodes to the input exactly if no run is longer than 256. rle --human always succeeds and prints each length modulo 256. Whenever the overflow-checked build succeeds, the release build writes the same bytes.", "quantifier": "every input stream", "why_tests_cant": "needs runs of every length up to and beyond 256 and every combination of runs", "anchors": ["src/bin/rle.rs:rle", "src/bin/rle.rs:rle_text"]}
{"id": "C107", "title": "count_z reports the known number of Lempel-Ziv factors of every generated word", "statement": "For every order k, the word of each generator of `word` has exactly the known smallest number of Lempel-Ziv phrases, and count_z, reading what the generator wrote, prints that number as factors=: k+1 for Fibonacci words, 2k for Thue-Morse and period-doubling words (k>=1), 3k for the ternary Thue-Morse words (k>=1), k+2 for tribonacci words (k>=2), 3k-2 for the paperfolding words (four letters: k>=2, binary: k>=3).", "quantifier": "every generator named, every order (for the printed line: every order whose word fits the 2^31-1 bytes of the suffix sorter), every suffix sorter that meets its contract, every input file name and content of the file system", "why_tests_cant": "The repository uses these words as benchmark inputs with known repetitiveness; a test can only compare finitely many orders, and a wrong tie or boundary in the parse or a generator shows up only from some order on.", "anchors": ["src/word.rs:fibonacci_word, thuemorse_word, period_doubling_word, vtm_word, tribonacci_word, quaternary_paperfolding_word, paperfolding_word", "src/bin/count_z.rs:main", "src/bin/count_z.rs:compute_lz77"]}
{"id": "C108", "title": "Every command does, for every way of writing its command line, what its options say", "statement": "For every accepted command line of count_runs, count_sigma, count_r, entropy, entropy_kmer, mus, count_z, count_lexparse, lyndonfactorization, reverse, bwt, mtf, escape, word, lyndonwords and randomstring: the input is the first p bytes (all if -p is absent or 0) of the file given with -i, or of the standard input; the output goes to the file given with -o, or to the standard output; options that are absent have the documented default (order 0, words of length 5 over 2 letters, random strings of length 10, escape symbol 0, no flags); the printed line and the written file are those of the text read, the exit status is 0, and no other file changes. If there is no such input the tools panic before printing or writing anything.", "quantifier": "all command lines (any order and spelling of the options), all worlds, all texts in the domain of the respective algorithm, all environments (suffix sorter meeting its contract, clock, random source)", "why_tests_cant": "the command lines, file contents and combinations of options are unbounded", "anchors": ["src/bin/*.rs (Args, main)", "src/io.rs: file_or_stdin2byte_vector, stream_or_stdin, stream_or_stdout"]}
{"id": "C109", "title": "count_r reports the known number of BWT runs of every generated word", "statement": "For every order k, the last column of the sorted rotation matrix of the word of a generator has exactly the known number of runs, and `count_r --use-matrix --no-dollar`, reading what the generator wrote, prints that number as bwt_runs= and the length of the word as length=: 2k runs for Thue-Morse words (k>=1), 2(k-1) for period-doubling words (k>=2), 2k+1 for ternary Thue-Morse words, 2 for Fibonacci words (k>=1, the column is b^F(k) a^F(k+1)) and 2 for their Lyndon factors.", "quantifier": "every generator named, every order (for the printed line: every order whose word the generator and the suffix sorter can handle), every command line of count_r with the two flags, every suffix sorter that meets its contract, every file system content", "why_tests_cant": "The words are the benchmark inputs with known repetitiveness; a test compares finitely many small orders, and the recursion of the transform under each morphism has boundary rows (letters around the end of the word) that only an argument for every order settles.", "anchors": ["src/word.rs:fibonacci_word, thuemorse_word, period_doubling_word, vtm_word, fibonacci_lyndonfactor", "src/bin/count_r.rs:main", "src/core.rs:bwt_by_matrix, number_of_runs"]}
{"id": "C110", "title": "Success means the output is complete", "statement": "If a tool that writes a file or standard output ends normally, every byte of its output has reached the device, even if the device took the data in pieces, interrupted calls or refused some; if a write is refused the tool panics instead of ending normally.", "quantifier": "every device behaviour (any sequence of short writes, interruptions and refusals), every buffer capacity, every input of mtf, rle, escape, reverse, bwt, word, randomstring, lyndonwords, count_z, count_lexparse, lyndonfactorization and the printing tools", "why_tests_cant": "the failing call can be any of the writes, and whether an error is noticed depends on where the data waits in a buffer", "anchors": ["src/io.rs:stream_or_stdout", "src/bin/word.rs:main", "src/bin/randomstring.rs:main", "src/bin/lyndonfactorization.rs:main", "src/bin/mtf.rs:mtf", "src/bin/rle.rs", "src/bin/escape.rs:main"]}
{"id": "C111", "title": "Only prefixes of the output ever arrive", "statement": "At every moment of a run, also when a write fails or the process is stopped, the output file or pipe holds what it held before followed by a prefix of the tool's output: no byte is lost in the middle, duplicated or reordered, also after a failed write is retried while a buffer is dropped.", "quantifier": "every device behaviour, every moment of the run, every buffer capacity, every tool and input", "why_tests_cant": "all points of failure of all runs", "anchors": ["src/io.rs:stream_or_stdout", "src/bin/lyndonfactorization.rs:main", "src/bin/mtf.rs:mtf", "src/bin/rle.rs"]}
{"id": "C112", "title": "Short writes and interrupted calls do not matter", "statement": "If the device never refuses data, every tool delivers exactly its output and ends as it should, however the device divides the data and however many calls are interrupted.", "quantifier": "every device that takes at least one byte per uninterrupted call, every buffer capacity, every tool and input", "why_tests_cant": "infinitely many divisions and interruption patterns", "anchors": ["src/io.rs:stream_or_stdout", "src/bin/word.rs:main", "src/bin/lyndonfactorization.rs:main"]}
{"id": "C113", "title": "A failed read is not taken for the end of the input", "statement": "A tool whose input fails while it is read does not present the result for the part read so far as the result; interrupted read calls and the division of the input into pieces do not matter.", "quantifier": "every sequence of read answers (data, interruptions, errors, end), every prefix length, all tools", "why_tests_cant": "the error can occur after any byte", "anchors": ["src/io.rs:read_char", "src/io.rs:stdin2byte_vector", "src/io.rs:file2byte_vector", "src/bin/mtf.rs:mtf", "src/bin/rle.rs", "src/bin/escape.rs:main", "src/core.rs:number_of_runs"]}
{"id": "C114", "title": "How a call of max_lyndon_word ends when workers panic", "statement": "In a build with overflow checks: under every schedule and for every number of workers a call of max_lyndon_word stops after a bounded number of steps; it never returns normally. It either panics (a worker panicked, and the join reports it) or hangs for ever with the main thread waiting for a worker that waits for a lock, which happens only when the total counter is a multiple of 10000; both endings occur (hanging needs two workers). Workers panic and locks are poisoned only after some i32 counter has reached its maximum, and the recorded best texts stay genuine after panics.", "quantifier": "every schedule, every number of workers, every point at which a worker panics, every order in which guards are dropped and poisoned locks are met", "why_tests_cant": "the first overflow needs more than 2^31 words; schedules and panic points are unboundedly many", "anchors": ["src/unfinished/parallel.rs:max_lyndon_word"]}
{"id": "C115", "title": "Without overflow checks a generator returns the word asked for or fails", "statement": "In a release build (sums and differences wrap, shift distances are taken modulo the width) the word generators, the two numbers, the enumeration of Lyndon words, the enumeration of binary strings and the tools word and lyndonwords return what they return with overflow checks, and otherwise panic: never a different word or list. (False: period_doubling_word, the two paper-folding words and power2_sequence return the word of order k mod 64, fibonacci_word(255) returns 'a', the Lyndon word generator without an alphabet or with more than 256 letters never ends, binary strings longer than 64 repeat, lyndonwords with more than 159 letters prints wrapped bytes. True for the Fibonacci (order below 255), Thue-Morse, Kolakoski, Tribonacci, VTM and Fibonacci-Lyndon words and for 1 to 256 letters.)", "quantifier": "every generator, every order a u8 can hold, every length estimate, every alphabet size and length, every number of calls of an iterator, every command line of word", "why_tests_cant": "tests are run in the build with overflow checks, and only for small orders; which orders silently wrap is a statement about all orders and both builds", "anchors": ["src/word.rs: fibonacci_word, thuemorse_word, kolakoski_word, iterate_2morphism, iterate_general_morphism, quaternary_paperfolding_word, paperfolding_word, power2_sequence, vtm_word, fibonacci_lyndonfactor, fibonacci_number, tribonacci_number", "src/core.rs: LyndonWordGenerator, BinaryStringGenerator", "src/bin/word.rs", "src/bin/lyndonwords.rs"]}
{"id": "C116", "title": "RUST_LOG=debug lyndonfactorization logs the factorization and changes nothing else", "statement": "Whatever level RUST_LOG selects, in a build with or without debug assertions, lyndonfactorization ends in the same way, writes the same report file and prints the same length and number of factors as without logging; in particular the debug check of the factorization against the suffix array never fails. The messages are exactly: at level info 'read text', at level debug the line 'Lyndon factorization : [...]' with the positions where the factors of the Lyndon factorization end, and, when a report file is written, at level info one line 'writing Factor k : begin -> end' for each listed factor after the first. From the debug line the lengths of all factors can be read off.", "quantifier": "every text below 2^31 bytes (from a file, a prefix of it or standard input), every log level, both builds, with or without a report file, every correct suffix sorting algorithm", "why_tests_cant": "The README documents RUST_LOG=debug as the way to see the factorization; that the debug-only self check can never abort the program, and that the printed positions always are the factor boundaries, are statements about all texts.", "anchors": ["src/bin/lyndonfactorization.rs: main", "src/core.rs: duval, isa_lyndon_factorization, inverse_permutation", "README.md"]}
{"id": "C117", "title": "The default mode of count_r reports an exact, known number of runs for every generated word", "statement": "count_r without flags appends the sentinel byte and counts the runs of the transform of the result. For the word of order k of each generator the number it prints as bwt_runs= is: 2k+1 (k<=3) and 3k-2 (k>=4) for Thue-Morse words; k+2 (k<=3) and 2k-1 (k>=4) for period-doubling words; 2k+2 for ternary Thue-Morse words; 4 for Fibonacci words of even order >=2 (and of order 3) but k for those of odd order k>=5, so the reported measure is not bounded although the cyclic transform has two runs; 4 for fibonacci-lyndonfactor words (k>=1). For any Lyndon word without a zero byte the column with the sentinel is the column without it with the sentinel inserted behind its first letter, so the two modes of count_r differ by one or two runs.", "quantifier": "every generator named, every order (for the printed line: every order whose word the generator and the suffix sorter can handle), every Lyndon word, every command line of count_r without the two flags, every suffix sorter that meets its contract, every file system content", "why_tests_cant": "A test compares finitely many small orders; the sentinel breaks the cyclic structure, the formulas only settle from order 3 or 5 on, and the growth along odd Fibonacci orders is a statement about all of them.", "anchors": ["src/word.rs:fibonacci_word, thuemorse_word, period_doubling_word, vtm_word, fibonacci_lyndonfactor", "src/bin/count_r.rs:main", "src/core.rs:number_of_runs"]}
{"id": "C118", "title": "The number of LZ77 factors of count_z obeys the laws of the measure", "statement": "For every non-empty text of less than 2^31 bytes count_z finds exactly one number z of factors, and: appending text never lowers z and raises it by at most the z of the appended text (z(u) <= z(uv) <= z(u)+z(v)); repeating a text adds at most one factor and every further repetition adds none (z(w^k) = z(ww) <= z(w)+1 for k>=2); a one-to-one renaming of the bytes leaves z unchanged; inserting a single byte anywhere gives at most 2z+2 factors, deleting one at most 3z+1; z is at most the length of the text and at most twice its number of runs of equal bytes.", "quantifier": "all non-empty byte texts (all pairs, all repetitions, all positions and all letters of the edit) of less than 2^31 bytes, all injective renamings, every suffix sorter that meets its contract", "why_tests_cant": "The laws compare the outputs on two related inputs for all pairs of inputs; a test only compares some pairs, and a greedy parse can look right on each while violating the comparison on others.", "anchors": ["src/bin/count_z.rs:main", "src/core.rs:compute_lz77"]}
{"id": "C119", "title": "The cyclic transform of bwt and its number of runs obey the laws of the measure", "statement": "With --use-matrix --no-dollar, for every non-empty text without zero bytes: the transform of the text repeated k times is the transform of the text with every letter repeated k times, so count_r reports the same number of runs; a renaming that keeps the order of the letters renames the transform and one that reverses the order renames and reverses it, with the same number of runs in both cases; the number of runs lies between the number of different bytes and the length; if two different bytes occur, the transform neither begins with the least nor ends with the greatest byte; and over exactly two letters the number of runs is even.", "quantifier": "all zero-free non-empty texts (and all k, all renamings) of less than 2^31-1 bytes, every suffix sorter that meets its contract", "why_tests_cant": "The laws relate the outputs for infinitely many pairs of inputs; in addition the tool switches its algorithm at 100 bytes, so the two texts that are compared may take different paths.", "anchors": ["src/bin/bwt.rs:main", "src/bin/count_r.rs:main", "src/core.rs:bwt_by_matrix_naive, bwt_by_matrix, number_of_runs"]}
{"id": "C120", "title": "The sets of positions is_stringattractor accepts obey the laws of attractors", "statement": "For every non-empty text without zero bytes: adding positions to an accepted list keeps it accepted, and the order and multiplicity of the positions and the position of the sentinel do not matter; a one-to-one renaming of the bytes does not change what is accepted; a list is accepted for a text exactly if the mirrored list is accepted for the reversed text; accepted lists of u and of v together with the last position of u are accepted for uv; and an accepted list of w together with the last position of w is accepted for w repeated any number of times.", "quantifier": "all zero-free non-empty texts of less than 2^31-1 bytes, all lists of positions in range, all renamings, all numbers of repetitions, every suffix sorter that meets its contract", "why_tests_cant": "Each law compares the verdicts on infinitely many pairs of texts and position lists.", "anchors": ["src/bin/is_stringattractor.rs:is_attractor"]}
{"id": "C121", "title": "The exact size of the smallest string attractor of the generated words", "statement": "is_attractor accepts a list of g positions for the word of order k of a generator and no list of fewer positions, where g is: 4 for Thue-Morse words of order >= 4 (1, 2, 2, 3 for the orders 0 to 3); 4 for ternary Thue-Morse words of order >= 3 (1, 3, 3 before); 3 for Tribonacci words of order >= 2 (1, 2 before); 2 for period-doubling words and for Fibonacci words of order >= 1 (1 for order 0).", "quantifier": "every order of the five generators, every list of positions", "why_tests_cant": "The lower bounds quantify over all sets of positions and the upper bounds over all substrings of words of unbounded length.", "anchors": ["src/bin/is_stringattractor.rs:is_attractor", "src/word.rs:thuemorse_word, vtm_word, tribonacci_word, period_doubling_word, fibonacci_word"]}
{"id": "C122", "title": "lyndonfactorization reports the known number of Lyndon factors of every generated word", "statement": "The number of Lyndon factors that `duval` returns and that `lyndonfactorization` prints as `factors=` is, for every order a generator can produce: Fibonacci word k/2+1 (k even), k-1 (k odd, from 3 on); Thue-Morse word k-1+floor(k/2) (from 2 on); period-doubling word k+1 (k even), (k+1)/2 (k odd); ternary Thue-Morse word and fibonacci-lyndonfactor 1 (they are Lyndon words); quaternary paperfolding word floor(k/2)+2 (from 1 on); binary paperfolding word ceil(k/2)+4 (from 4 on); powers-of-two word k+2^(k-1) (from 1 on). The Fibonacci word of even order 2j is the concatenation of the words fibonacci_lyndonfactor(0..j-1) and the letter a.", "quantifier": "all orders of each generator; for the commands all spellings of the command line, all file systems and input routes", "why_tests_cant": "The words grow exponentially with the order; the closed forms need the structure of the Lyndon factors under the morphisms for all orders.", "anchors": ["src/core.rs: duval", "src/bin/lyndonfactorization.rs: main", "src/word.rs: fibonacci_word, thuemorse_word, period_doubling_word, vtm_word, fibonacci_lyndonfactor, paperfolding_word, quaternary_paperfolding_word, power2_sequence"]}
{"id": "C123", "title": "The looping tests of the project pass with every bound, and what their assertions accept", "statement": "The tests of src/tests/core_test.rs and the looping tests of src/word.rs, count_z, mus and is_stringattractor pass not only with the bounds they fix (4096 rounds, orders below 8, 10 or 16) but with every bound: the tests on generated test strings with every number of rounds below 2^64 - 1 and every alphabet width from 1 to 7 bits, the tests on generated words for every order whose word fits the machine types and the suffix sorter, the de Bruijn test for every order. The assertions of the Lyndon conjugate test accept a position iff the rotation there is least; those of the period test accept every period, not only the smallest; those of the border test accept any borders (for instance an array of zeros); those of the de Bruijn test accept any word without repeated windows.", "quantifier": "all loop bounds, alphabet widths and suffix sorters meeting their contract; for the assertions: all texts and all candidate results", "why_tests_cant": "A run of a test settles one bound; that no larger bound would ever fail, and which wrong results the assertions would let through, are statements about infinitely many runs.", "anchors": ["src/tests/core_test.rs: test_duval, test_bwt_from_text_by_sa, test_bwt_by_matrix, test_lyndon_conjugate, test_border_array, test_period", "src/word.rs: test_fibonacci_number, test_thue_morse_morphism, test_fibonacci_morphism, test_binary_debrujin_word", "src/bin/count_z.rs: test_compute_lz77", "src/bin/mus.rs: test_mus_fibonacci", "src/bin/is_stringattractor.rs: test_attractor_period_doubling, test_attractor_fibonacci_attractor"]}
{"id": "C124", "title": "The release build of the library functions and of the analysis tools", "statement": "Built with --release (no overflow checks, no debug assertions), the library functions on texts (duval, lyndon_conjugate, border_array, is_primitive, bwt_by_matrix_naive, bwt_by_matrix, bwt_from_sa, bwt_from_text_by_sa, bbwt_naive, compute_psv, compute_nsv, compute_phi, isa_lyndon_factorization) and the tools count_z, count_lexparse, mus, bwt, count_r, lyndonfactorization and is_stringattractor return exactly what the debug build returns and panic on the same inputs. The builds differ only for array arguments no tool passes (smallest_period of an array whose last entry is too large wraps; compute_plcp and compute_lcp accept and ignore surplus entries) and for entropy of order 1 on an empty input, where the debug build panics and the release build prints NaN.", "quantifier": "every text over every ordered alphabet, every array, every list of LZ77 factors, every input of the tools shorter than 2^31-1 bytes, every order, every correct suffix sorter", "why_tests_cant": "The tests run in one build at a time; that no subtraction underflows and no debug assertion fires where the release build would go on is a statement about every input.", "anchors": ["src/core.rs:compute_plcp", "src/core.rs:compute_lcp", "src/core.rs:smallest_period", "src/bin/count_z.rs:compute_lz77", "src/bin/entropy.rs:kth_order_entropy", "src/bin/is_stringattractor.rs:lcp_intervals", "src/bin/mus.rs:get_mus", "src/bin/lyndonfactorization.rs:main"]}
{"id": "C125", "title": "max_lyndon_word in the release build", "statement": "Built with --release, the workers of max_lyndon_word never panic, whatever the schedule and the number of workers, and every run ends after a bounded number of steps in one of two ways: every worker has left its loop, or the remaining workers wait for each other's locks for ever, which can only happen while the number of words counted is a multiple of 10000. Both endings occur. When all workers have left their loops, the total is the number of binary Lyndon words of length at most 40 and the counters for every length hold the true numbers reduced to an i32; for length 40 the counter of words shows 1717960698 instead of 27487764474 and the counters of the outcomes do not add up. The output always consists of complete reports whose numbers are the true ones reduced to i32, and a report can show a negative number of words. The records are genuine, as in the debug build.", "quantifier": "every number of workers, every schedule, every reachable state", "why_tests_cant": "A complete run visits 55 billion words; the wrap-around shows only after more than two billion words, and the deadlock depends on the schedule.", "anchors": ["src/unfinished/parallel.rs:max_lyndon_word"]}
{"id": "C126", "title": "count_lexparse reports the known numbers of lex-parse factors of generated words", "statement": "For a word written by the word generator, count_lexparse reports: for the Thue-Morse word of order k >= 3 exactly floor((3k+3)/2) factors; for the power-of-two sequence of order k >= 3 exactly k+3; for every Fibonacci word of even order from 4 on exactly 4, however long, and for the Fibonacci word of odd order 2i+1 >= 3 exactly i+3; for every Fibonacci Lyndon factor of order from 1 on exactly 4; for the period-doubling word of even order k >= 2 exactly 3k/2+1, and of odd order k >= 3 exactly k+2. The lexicographic parse of a text is unique, and for every non-empty text factors= is its number of phrases (longest prefix of the rest that also starts a lexicographically smaller suffix, otherwise one letter).", "quantifier": "every order k from the stated minimum on (the printed line: every order whose word is shorter than 2^31 bytes), every correct suffix sorter, every input channel and file name without blanks, every running time", "why_tests_cant": "The words grow exponentially with the order; a test can compare a few orders but not show that the count stays 4 or grows by exactly the stated amount.", "anchors": ["src/bin/count_lexparse.rs:main", "src/bin/word.rs:main", "src/word.rs:thuemorse_word", "src/word.rs:power2_sequence", "src/word.rs:fibonacci_word", "src/word.rs:fibonacci_lyndonfactor", "src/word.rs:period_doubling_word"]}
{"id": "C127", "title": "The number of phrases of count_lexparse obeys the laws of the measure", "statement": "For every non-empty text of less than 2^31 bytes count_lexparse finds exactly one number v of phrases, and it is the smallest possible: no way of splitting the text into single letters and copies of beginnings of lexicographically smaller suffixes has fewer. v is at least the number of different letters, at most the length of the text and at most twice its number of runs of equal letters. Putting a text u in front adds at most |u| phrases; taking the first letter away at most doubles v. Renaming the letters without changing their order leaves v unchanged (exchanging two letters can change it: abbaba 4, baabab 5). From the second repetition on repeating a text changes nothing (v(w^k) = v(ww) for k >= 2), v(ww) <= v(w)+1 and v(w)+2 <= 2 v(ww) (a repetition can save phrases: aaaabaaba 6, its square 5). Unlike the number of LZ77 factors, v is not monotone: the Fibonacci word of order 2d+3 has d+4 phrases but is a beginning of the word of order 2d+4, which has 4.", "quantifier": "all non-empty byte texts (all front texts, all repetitions) of less than 2^31 bytes, all order-preserving renamings, all d, every suffix sorter that meets its contract", "why_tests_cant": "The laws compare the outputs on related inputs for all pairs, and minimality ranges over exponentially many ways of splitting the text.", "anchors": ["src/bin/count_lexparse.rs:main", "src/core.rs:compute_lexparse"]}
{"id": "C128", "title": "Logging is harmless, and what the tools log", "statement": "Whatever log level is enabled, fibonacci_word, kolakoski_word, count_z, count_lexparse, bwt, count_r and mus end in the same way, with the same results and files, as without logging. The messages are known exactly: fibonacci_word(k) logs the size of its buffer, the Fibonacci numbers that are the lengths of the words of order 0..k, the last one again as the k-th Fibonacci number, and the number of letters it wrote; kolakoski_word(k) logs its buffer size 2^(k+2)+2 (2^(k+2)+1 from order 51 on, where the floating-point +1 is lost); count_z and count_lexparse log, at level debug, the text, its suffix array and the list of the factors, which determines the factors, and for the empty text the text and the suffix array before they panic; mus logs the prefix length and the time even when it then panics; bwt and count_r log the text, the transform and the suffix array, where with --use-matrix --no-dollar from 100 bytes on the logged text is the least rotation of the input followed by a 0 byte, and below 100 bytes nothing of this is logged. The claim that the number of letters written is the length of the word is false for every odd order: it is one more.", "quantifier": "every log level, every estimate of the buffer size that is large enough, every order, every input text (within the 32-bit limits of the suffix sorter), every sorter that sorts, every elapsed time", "why_tests_cant": "The tests never enable a logger, and the messages range over all texts, orders and levels.", "anchors": ["src/word.rs: fibonacci_word, kolakoski_word", "src/core.rs: bwt_from_text_by_sa, bwt_by_matrix", "src/bin/count_z.rs: main", "src/bin/count_lexparse.rs: main", "src/bin/bwt.rs: main", "src/bin/count_r.rs: main", "src/bin/mus.rs: main"]}
{"id": "C129", "title": "The log of is_stringattractor is the suffix tree", "statement": "With RUST_LOG=info, is_stringattractor logs one line `LCPInterval { depth, begin, end }` for every edge of the suffix tree of the text, in postorder (which determines the list): the length of the word of the lower node, and the first and last suffix array entry that begins with it; the log stops at the first edge whose shortest word is uncovered and not UTF-8, where the tool panics, and otherwise ends with a line for the root. The substrings are printed in the same order. Logging never changes the output or the exit status. The suffix tree of a non-empty text of n letters has at least n and less than 2n edges, so the log has at most 2n+1 lines, and at least n+2 if the program ends with a verdict.", "quantifier": "for all zero-free inputs up to 2^31-2 bytes, all position lists, all log levels", "why_tests_cant": "The whole tree construction (every edge, once, with its interval and in order) over all texts.", "anchors": ["src/bin/is_stringattractor.rs:lcp_intervals", "src/bin/is_stringattractor.rs:is_attractor", "src/bin/is_stringattractor.rs:main"]}
{"id": "C130", "title": "Laws of borders, periods and primitivity", "statement": "The border array of a prefix is the prefix of the border array. Following the border array from the length of the text on visits exactly the lengths of the proper borders of the text, so the array contains all of them. smallest_period of a text and of its reversal agree; a substring has no larger smallest period; every period q with p + q <= n + gcd(p,q), p the returned smallest period, is a multiple of p (Fine and Wilf). is_primitive gives the same answer for all rotations of a text and for its reversal. Every non-empty text is in exactly one way a power u^k of a text that is_primitive accepts; is_primitive(text) is true exactly if k = 1, and for k >= 2 smallest_period returns |u|. is_primitive accepts exactly the texts that occur in their square only at the two ends; two texts commute exactly if they are powers of one text, and then is_primitive rejects their concatenation.", "quantifier": "for all texts over any alphabet, all prefixes, substrings, rotations, periods and factorizations into powers", "why_tests_cant": "Relations between the results on infinitely many pairs of texts; uniqueness of the root quantifies over all factorizations.", "anchors": ["src/core.rs:border_array", "src/core.rs:smallest_period", "src/core.rs:is_primitive"]}
{"id": "C131", "title": "Laws of Duval's factorization", "statement": "Let the factors of a text be the pieces core::duval cuts it into. The factors of s++t are those of s followed by those of t if the last factor of s is not smaller than the first of t; otherwise one non-empty run of last factors of s and one of first factors of t melt into one factor and all others remain. So there are never more than both had, and as many exactly if the order at the cut is right. A text cut at borders of factors is factorized into these factors; the factors of a suffix are those of the rest of the factor it cuts, and all later factors unchanged. The first factor is the longest Lyndon prefix; the last one is the least non-empty suffix and the longest Lyndon suffix. Every occurrence of a Lyndon word lies inside one factor, so a longest factor is a longest Lyndon substring. A power u^k of a Lyndon word is cut into its k copies; there is one factor exactly if the text is a Lyndon word, and as many as letters exactly if the letters never increase. The cut positions depend only on the order of the letters.", "quantifier": "for all texts over any ordered alphabet, all concatenations, cuts, suffixes, substrings and strictly monotone renamings", "why_tests_cant": "Relations between the results on infinitely many pairs of texts and all substrings.", "anchors": ["src/core.rs:duval"]}
{"id": "C132", "title": "Laws of the minimal unique substrings", "statement": "get_mus, called on the arrays the library computes for a zero-free text T and a sentinel, returns exactly one list for each T; it is empty only for the empty text, has at most |T| entries, both ends of the substrings strictly increase, and all lie inside the text. A substring of T occurs nowhere else exactly if it contains one of the reported substrings. Reversing the text mirrors the list; renaming the letters injectively does not change it. Appending a letter that does not occur in T appends the single entry (|T|, 1), prepending it shifts the list and puts (0, 1) in front. The whole text is reported exactly if all its letters are equal, and then it is the only entry. (i, 1) is reported exactly if the letter at i occurs once; the list is (0,1), (1,1), ... exactly if no letter repeats. Every position list that is_attractor accepts has a position inside each reported substring.", "quantifier": "for all zero-free texts of fewer than 2^31-1 bytes, all substrings, injective renamings, new letters and position lists, and every sorter that sorts", "why_tests_cant": "Relations between the results on infinitely many texts and all their substrings.", "anchors": ["src/bin/mus.rs:get_mus", "src/bin/is_stringattractor.rs:is_attractor"]}
{"id": "C133", "title": "The arrays with 32-bit entries on inputs of 2^32 and more entries", "statement": "On a text of any length compute_plcp and compute_lcp hold the lengths of the longest common prefixes modulo 2^32; the first wrong value is that of 2^32+1 equal letters, 0 instead of 2^32. compute_psv never panics or hangs on a non-empty array of any length; all entries below index 2^32 are right, the entry at index 2^32 is always u32::MAX (no smaller value), which is wrong if the previous value is not smaller but an earlier one is, and every later entry whose previous value is smaller is that position truncated to 32 bits. compute_nsv on exactly 2^32 entries ignores the last one, and on 2^32+1 equal entries followed by a smaller one it loops for ever. So the limits of C10 and C11 are exact.", "quantifier": "for all texts, suffix arrays and arrays over any ordered type, of any length", "why_tests_cant": "The arrays do not fit the memory of a test machine (compute_nsv on 2^32 entries takes 16 GiB for its result alone).", "anchors": ["src/core.rs:compute_plcp", "src/core.rs:compute_lcp", "src/core.rs:compute_psv", "src/core.rs:compute_nsv"]}
{"id": "C134", "title": "The messages of the small tools tell how far they got", "statement": "Whatever log level is enabled, count_sigma, entropy, entropy_kmer, reverse and escape end in the same way, with the same results and files, as without logging, and their messages are exactly known. count_sigma, entropy and entropy_kmer log the input name, the prefix length and 'read text' before they read, and 'compute sigma' or 'compute entropy' after they have read, whether the computation then succeeds or panics; if the file does not exist or the standard input is too short, 'read text' is the last message and they fail. entropy_kmer refuses an order outside 1..7 without a message. reverse logs nothing if its output file cannot be created, ends with 'read text' if there is no input after its output file was emptied, and with 'compute reverse' if there is one. escape logs one message before it reads; it logs nothing exactly if a file cannot be opened or its tables are refused, and it has then written nothing (its output file is at most emptied).", "quantifier": "all log levels, inputs, file systems, prefix lengths, orders, escape tables and builds", "why_tests_cant": "the set of inputs, tables and file-system states is unbounded, and the order of messages and failures must be right for each of them", "anchors": ["src/bin/count_sigma.rs: main", "src/bin/entropy.rs: main", "src/bin/entropy_kmer.rs: main", "src/bin/reverse.rs: main", "src/bin/escape.rs: main"]}
{"id": "C135", "title": "The minimal unique substrings of the Thue-Morse and period-doubling words and of the powers-of-two words", "statement": "The word of thuemorse_word(k) has, for every order k >= 4, exactly eight minimal unique substrings, all of length 2^(k-3)+2, at the positions u*a-1 for u = 2^(k-4) and a in 2, 3, 4, 6, 8, 10, 11, 12; the word of period_doubling_word(k) has, for every order k >= 4, exactly four, all of length 2^(k-2)+1, at the positions u*a-1 for a in 4, 6, 8, 12. get_mus, called on the arrays the library computes for these words and a sentinel, returns exactly these lists for every order from 4 to 30. The word of power2_sequence(k) is, for every order 3 <= k <= 62, a text followed by a zero byte, and the text has exactly k+1 minimal unique substrings (position, length): (2^j-1, 2^j+1) for j < k-2, then (3*2^(k-3)-1, 2^(k-3)+1), (2^(k-1)-1, 2^(k-2)+1) and (2^(k-1), 2^(k-1)-1); the mus tool, run on the file with this word, computes exactly this list for every order up to 30.", "quantifier": "all orders k >= 4 (for the answer of get_mus all orders up to 30, where the text still fits its i32 indices), and every correct suffix sorter", "why_tests_cant": "The repository tests the minimal unique substrings of Fibonacci words of a few orders only; a test of the other families can only look at small orders, while the statement is about all of them and the words grow exponentially.", "anchors": ["src/bin/mus.rs:get_mus", "src/word.rs:thuemorse_word", "src/word.rs:period_doubling_word", "src/word.rs:power2_sequence", "src/bin/mus.rs:main"]}
{"id": "C136", "title": "The number of minimal unique substrings is bounded by the runs of the Burrows-Wheeler transform", "statement": "For a text without byte 0, every minimal unique substring that get_mus returns starts at a letter that stands, in the Burrows-Wheeler transform written by bwt for the text and a sentinel, at the beginning or at the end of a run: its left or right neighbour in the transform is missing or different. Consequently the number of minimal unique substrings of a non-empty text is smaller than twice the number of runs that count_r reports for the text, and smaller than twice the number it reports for the reversed text.", "quantifier": "all texts of bytes other than 0 with fewer than 2^31-1 bytes, all lists get_mus returns for them, and every correct suffix sorter", "why_tests_cant": "Two tools of the library computing on unrelated data structures are related here by an inequality that has to hold for every text; tests compare their outputs on a few texts.", "anchors": ["src/bin/mus.rs:get_mus", "src/bin/count_r.rs:main", "src/core.rs:bwt_from_text_by_sa", "src/core.rs:number_of_runs"]}
