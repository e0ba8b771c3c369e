# Formal model of koeppl/stringology-rust in Lean 4

## 1. Layout

| Path | Content |
|---|---|
| `properties.jsonl` | the English properties C01, C02, ... |
| `lean/Verif/Rust.lean` | the little run-time vocabulary the model is written in: `Res` (result or panic), checked indexing, checked arithmetic, `for`/`while` loops |
| `lean/Verif/Spec/*.lean` | specification vocabulary (Lyndon word, rotation, border, suffix array, LZ parse, ...). Never mentions the model |
| `lean/Verif/Model/*.lean` | the model: one Lean definition per Rust function, each with file/line citation |
| `lean/Verif/Lemmas/*.lean` | helper lemmas |
| `lean/Verif/Props/*.lean` | the property theorems (name `Cnn_...`), with a satisfiability `example` next to each |
| `MANIFEST.json` | property -> theorem names and status |
| `seeded/LOG.jsonl` | log of the deliberately wrong models the theorems were tested against |

## 2. How Rust is modelled

* `Vec<T>`, slices, `VecDeque` are `List T`. A function with `&mut` returns the new value.
* A function that can panic returns `Res α = Except Panic α`. Indexing is checked (`rd`, `wr`), `usize`
  subtraction is checked (`usub`), `assert!`, `unwrap`, `unreachable!` are explicit `Panic` values.
* `for i in a..b` is `forRange a b`; `while` is `whileLoop fuel cond body` where running out of fuel is
  the error value `Panic.fuel`. A theorem concluding `= .ok r` therefore shows that the loop ends
  within that many iterations, so the fuel is not a restriction (and termination is proved).
* `usize`/`u64` values are `Nat` unless the property is about overflow; then the overflow is an explicit
  check (`Panic.arith`, the debug/overflow-checked profile), or a wrap-around where both profiles are modelled.
* The stable `slice::sort_by` is `stableSort` (insertion; kernel-evaluable; a stable sort by a total preorder has exactly one result).
* Generic `C: Ord` is any type with `LinearOrder`; `u8` is `UInt8` with its numeric order; `[T]::cmp` is
  the lexicographic order of lists (a proper prefix is smaller).

## 3. Trusted base

### 3.1 Kernel and axioms

* Lean 4.33.0's kernel accepts every theorem. No own axioms, no `native_decide`, no `bv_decide`, no `sorry`-like holes,
  `decide +kernel` only for closed decidable facts (refutation witnesses, whole finite tables, examples).
* `#print axioms` of every theorem listed in MANIFEST.json gives a subset of `propext`, `Classical.choice`, `Quot.sound`.
  All of them use exactly these three, except:
  no axiom: `C31_release_lossy`, `C33_refuted`, `C53_dispatch`;
  only `propext`: `C04_lyndon_conjugate_empty`, `C09_compute_phi_empty`, `C11_empty`, `C17_bbwt_empty`, `C47_refuted`;
  `propext` and `Quot.sound`: `runs_exist_unique`, `C53_stdin_prefix`, `C40_invalid`, `C43_limit`, `C45_with_start`,
  `C42_recurrence`, `C44_limit`, `C51_refuted`, `C52_limit`.
  (Regenerate with `python3 tools/axioms.py`.)
* Faithfulness of the reading of the Rust source: no code is executed here.

### 3.2 What is modelled, file by file

| Source | Modelled | Not modelled |
|---|---|---|
| `src/core.rs` | every function and iterator (Model/Core.lean, Model/Generators.lean) | - |
| `src/io.rs` | all six functions, over the file-system model `World` (Model/Streams.lean, Model/Mains.lean) and on failing devices (Model/Devices) | I/O error kinds other than missing file, uncreatable file, interrupted/failing read |
| `src/word.rs` | every function (Model/Word.lean; in the release build: Model/Release.lean, for the rest of the repository Model/ReleaseTools.lean) | the looping unit tests in Model/Tests; tests on literals are not modelled (their claims are theorems instead) |
| `src/bin/bwt.rs`, `mtf.rs`, `rle.rs`, `reverse.rs`, `escape.rs`, `word.rs` | the transformations and `main` on files and pipes (Model/BwtTool, Streams, Mains), the log messages (Model/ToolLogs, Model/SmallLogs) | `Instant` |
| `src/bin/count_z.rs`, `count_lexparse.rs` | factorizations, decoder, `main` with the factor file and the result line (Model/Lz, Mains, ResultLines), the log messages (Model/ToolLogs) | time stamps of the log |
| `src/bin/count_r.rs`, `count_runs.rs`, `count_sigma.rs`, `entropy.rs`, `entropy_kmer.rs` | computation and the result line (Model/ResultLines; the running time is arbitrary), the log messages (Model/ToolLogs, Model/SmallLogs) | float formatting (a parameter) |
| `src/bin/is_stringattractor.rs` | `lcp_intervals`, `is_attractor` with the lines it prints, exit status and output of `main` (Model/Attractor, Mains), the log messages (Model/AttractorLog) | - |
| `src/tests/core_test.rs` and the looping tests of word.rs, count_z, mus, is_stringattractor | the test programs, bounds as parameters (Model/Tests) | log and print lines; the entropy tests (tolerances in f64; their formulas over the reals are C88) |
| `src/bin/lyndonfactorization.rs`, `mus.rs` | the computation and the bytes of the report (Model/LyndonTool, Mus), the log messages (Model/LyndonLog, Model/ToolLogs) | time stamps of the log |
| `src/bin/enumerate.rs`, `enumerate_lexparse.rs`, `generator_kmer.rs`, `lyndonwords.rs`, `randomstring.rs` | all output bytes; they log nothing (`enumerate_lexparse` has messages but never calls `env_logger::init`) | - |
| the `Args` structures of all tools, `Args::parse` | Spec/Cli, Model/Cli, Model/Commands: words of the command line to files, standard output and exit status | error and help texts, environment variables, words that are not Unicode |
| `compute_stats.sh` | the patterns and the order of the cells (Model/ResultLines) | shell quoting |
| `gen_artificial.sh` | both loops, redirection, `set -e` (Model/GenArtificial) | `cargo` compiling, `mkdir`, `set -x` traces |
| `src/unfinished/parallel.rs` | `number_distinct_lyndon_factors`, `main` (worker protocol: Model/Threads, Parallel), `probe_main`, `max_lyndon_word` (Model/MaxLyndon, Prog; with panics and joins: Model/Poison; without overflow checks: Model/MaxRelease); the lines printed by the workers and the table of `main` (Model/Threads, StatsTable), the reports of `max_lyndon_word` (Model/MaxLyndon) | - |

### 3.3 External code and simplifications

* `cdivsufsort::sort_in_place` is a parameter `sufsort` with the contract `SortsSuffixes` (returns *the* suffix array for
  inputs up to 2^31-1 bytes); `naiveSufsort` is a proved witness. `segment_tree::SegmentPoint::query` is range minimum;
  `succinct` `rank1`/`select1`/`get_bit` have their documented meaning; `rand` is an arbitrary list of samples;
  `itertools::permutations().unique()` is the list of all permutations, each once, in an arbitrary order.
* `HashMap` is an association list; no theorem depends on an iteration order (the real-valued sums are order-independent).
* Floating point numbers are reals (`Real.logb`, and `0/0 = 0` where the code cannot produce it); rounding is modelled in Model/EntropyF (C98: every
  operation of the entropy tools rounded to a nearest double, `log2` with relative error 2^-52, an assumption about the C library).
  The `f64` length estimates in `word.rs` are a parameter in Model/Word (the theorems hold for every value that is large
  enough, see C42) and computed with rounding in Model/WordF (C99).
* `usize` is 64 bit. Allocation fails above `isize::MAX` bytes; otherwise memory is unlimited.
* Rust's `RefCell`/`Rc` tree in `is_stringattractor.rs` is an arena with indices.
* Except in Model/Devices (C110-C113, where devices refuse, interrupt and take data in pieces and the buffers of the standard library are
  modelled after its sources), output is an unbuffered byte list and writers never fail. `World` maps file names to contents: no links, no directories,
  nobody else changes a file, `File::create` truncates at once, `metadata().len()` is the content length.
  stdout lines of the result printers are the model's return value.
* Loops carry a fuel parameter; running out of fuel is an error value, so a theorem `= .ok r` includes termination.
* Arithmetic overflow is checked (debug profile) wherever a property is about it; where the two profiles differ the model
  has a flag (`count_sigma`, `rle`), and the generators and the tools `word` and `lyndonwords` are modelled in both (C115). In the other
  commands of Model/Commands the flag only selects the debug assertions of `clap`: an overflow is a panic of the checked build. The `total: usize` counter of `parallel.rs` is not bounded.
* Threads: sequentially consistent interleavings of atomic steps (lock, read, write, unlock). `Mutex` poisoning is
  modelled for `main` (C57) and for `max_lyndon_word` in Model/Poison (C114); in C58 and C94 a panic is a final state of the run. In the
  steps an `RwLock` reader is blocked only by a writer; `C58_deadlock_any_policy_partial` does not depend on that.
* `clap` 4 is external; Model/Cli is its documented behaviour for the attributes used here: words from left to right, first
  error ends with status 2, `short`/`long` from the field name, kebab case of variants, `u8` parsed as a number in range,
  duplicate letters: panic with debug assertions, first declaration wins without (`debug_assert` in `clap_builder`). No
  inference of abbreviated long options (that feature is off by default).
* Decimal and ASCII formatting (`decimal`, `ascii`) is shared by specification and model.

## 4. Plan per property (written before the proofs)

| Id | Model | Proof idea |
|---|---|---|
| C01, C02 | `duval` with both inner loops | loop invariant "period p = j-i on [k,j), first p letters Lyndon"; each emitted factor is the longest Lyndon prefix; Chen-Fox-Lyndon uniqueness |
| C03 | `isa_lyndon_factorization`, `inverse_permutation` | cuts at prefix minima of the inverse suffix array form a Lyndon factorization; uniqueness |
| C04 | `lyndon_conjugate` | factor of the doubled text covering position n-1 starts at the least suffix among positions < n |
| C05-C07 | `border_array`, `smallest_period`, `is_primitive` | KMP invariant; Fine-Wilf |
| C08 | `suffixarray_naive` | mergeSort is a sorted permutation; uniqueness of sorted permutations |
| C09-C11 | `compute_phi`, `inverse_permutation`, `compute_plcp`, `compute_lcp`, `compute_psv`, `compute_nsv` | loop invariants; Kasai lemma; pointer-jumping invariant |
| C12-C16 | the three BWT functions and the tools' branch | sorted rotations; column-by-column reconstruction; minimal rotation + sentinel. C16 is expected to be false for long inputs: prove the negation and the true part |
| C17, C18 | `bbwt_naive` | omega-order table reconstruction; counting of Lyndon roots |
| C19-C21 | `compute_lz77`, `decode_lz77` | LCP = range minimum; nearest smaller suffixes are optimal; greedy parse is minimal |
| C22 | `compute_lexparse` | induction on suffix rank; one-letter texts are counterexamples: negation + partial |
| C23, C24 | `get_mus` and the tool | repeated-substring length per position. C24 is expected to be false: negation |
| C25 | `lcp_intervals`, `is_attractor` | stack invariant of the LCP interval tree |
| C26, C27 | `zero_order_entropy`, `kth_order_entropy`, `entropy_via_kmer_counting` over the reals | LCP blocks = context classes. Floating point rounding is the subject of C98 |
| C28-C35 | stream tools | induction over the input; C29, C30, C33, C35 are expected to fail at corners: negation + partial |
| C36-C41 | iterators and enumerators | next-word lemma, counting arguments; C37 expected false: negation + partial |
| C42-C52 | word generators | morphism algebra, position formulas; C47, C48, C49, C51 expected false at corners: negation + partial |
| C53-C56 | io, reverse, output file, randomstring | direct |
| C57, C58 | interleaving model of the worker threads | invariant over schedules; C58 expected false: witness schedules |
| C59 | `number_distinct_lyndon_factors` | expected false: negation + partial |
| C58 | `max_lyndon_word` as a step program with locks | invariants over all interleavings; witnesses for lost update and deadlock; i32 counters overflow before the enumeration ends |
| C60 | `bit_size` | bits of a natural number |
| C61 | `bwt_from_text_by_sa` of `fibonacci_word` | standard words are conjugates of Christoffel words; the sorted rotations of an even Fibonacci word start at multiples of F(k-2) |
| C62 | `get_mus` of Fibonacci words | factor counting (Sturmian complexity) and special factors |
| C63, C64 | `is_attractor` of period-doubling and Fibonacci words | induction over the morphism: every substring has an occurrence crossing one of the two positions |
| C65 | `count_z` factors into `is_attractor` | leftmost occurrences end at or cross a factor end |
| C66 | BWT variants on the least rotation | one sorted table of rotations serves all variants; sentinel order equals rotation order for Lyndon powers |
| C67-C69, C73 | the `main` functions over `World` | composition of the stream theorems with the file model; C68 expected false for in-place use |
| C70, C71 | result lines and exit codes | composition with C25-C29 |
| C72, C74 | pipelines of tools | composition; C74 expected false for the default prefix length |
| C75, C76 | `probe_main`, `enumerate_lexparse` main | loop over all words of a length, composition with C22, C28 |
| C77, C78 | `lyndonfactorization` report and files | composition with C55; C78 expected false: the printed length is the prefix length |
| C79, C80 | Thue-Morse and ternary Thue-Morse words | descent along the morphism: an overlap at length n gives one at length n/2 |
| C81, C82 | measures of one text against each other | every substring has an occurrence touching one of the marked positions: counting, and LF-mapping steps inside a run |
| C83 | printed text of `is_stringattractor` | the interval tree nodes name exactly the shortest uncovered extensions; a byte-exact specification of UTF-8 |
| C85 | reverting direction of `escape` | induction over the tokens of the stream; exact domain |
| C86, C87 | lex-parse against BWT runs and attractors | irreducible PLCP positions are run starts; copies go to smaller suffixes |
| C88 | closed forms of the k-th order entropy | all contexts but the last have one follower; C26/C27 |
| C89, C90 | result lines as records, `sed` extraction of `compute_stats.sh` | splitting lemma for fields; last-match recursion; expected false for blanks in names: negation + partial |
| C91 | `gen_artificial.sh` over `World` | the 210 paths are distinct; composition with C42-C51 |
| C92 | the printed statistics table (Model/StatsTable) | composition with C57; the cells are read back by splitting at the bars; all run counts lie in 1..23 |
| C93 | the lines printed by the workers, one atomic step per `println!` (Model/Threads, Parallel) | invariant on the multiset of lines (printed + pending = lines of the words taken); rotations of Lyndon words = primitive words, without repetition (Lemmas/Conjugates) |
| C94 | the report of `max_lyndon_word`, one atomic step per `println!` (Model/MaxLyndon); what a report shows: Spec/MaxReport | the output belongs to the data of the lock of the numbers of words in the invariant of C58; counting argument for the balance of the outcomes; expected false (label, race): witness runs |
| C95 | the generator, tool and parallel program of C36, C57 | bijection between all words and powers of rotations of Lyndon words (unique primitive root by gcd of periods), then Möbius inversion from Mathlib (Lemmas/LyndonCount) |
| C96 | the core.rs functions on arbitrary arrays | partial-correctness rule for returning `for` loops (`forRange_returned`) against explicit last-writer-wins invariants; reuse of C01-C17 for the texts |
| C97 | Model/Cost: the functions again with a comparison counter | erasure to the model by compositional rules; partial-correctness rules for loops that returned (totality is known); potentials: remaining text for Duval, current border, current common prefix, length of the pointer chain |
| C98 | Model/EntropyF: the entropy functions again with a rounding after every operation; Spec/Rounding: the standard model of rounding errors and IEEE double precision | simulation of the exact model (`forEach_sim`, `forRange_sim`) with the relation "near up to N roundings, one logarithm and an absolute error"; any nearest rounding to the finite doubles satisfies the standard model |
| C99 | Model/WordF: the estimates of word.rs with a rounding after every operation, `powi` as the run-time function `__powidf2` | relative errors compose (`Rel.mul`, `Rel.fl`); induction over the bits of the exponent; the constants by squaring bounds of the square root of 5 |
| C100 | Spec/Cli: grammar `Line` of command lines; Model/Cli: the parser as a left-to-right state machine over all declared options; Model/Commands | invariant of the parser (settings so far = groups read so far) in both directions; lookup is unambiguous because letters and names are distinct |
| C101 | the same | the fields depend only on the settings per field; a field set once is insensitive to permutation |
| C102 | Model/Commands on top of Mains | C100/C101 and the claims C67, C70 about `main` |
| C103 | the calls of README.md, gen_artificial.sh, compute_stats.sh as lists of words | run the parser symbolically on the fixed words, for all free words; refuted for compute_stats.sh, four word names, `--file`, comma lists |
| C104 | `rleArgs` with the clashing letters, both builds | debug: always the panic; release: equals the parser of the declaration without the second `-o`, then C100's theorem |
| C105 | `enumerateParse`, `enumerateCmd` | induction over the words |
| C106 | `rle`, `rle_text` with the wrapping counter | induction over the stream with the run length modulo 256 |
| C107 | exact number of Lempel-Ziv phrases of the generated words (words as in C42-C51; `MinParse` in Spec/Lz) | lower bound: a substring without earlier occurrence forces a phrase start inside it; disjoint families of such substrings are carried from one order to the next by the synchronisation of the morphism (Lemmas/LzWords, LzTrib, LzPaper); upper bound: explicit copies; then C20/C21 for what `count_z` computes |
| C108 | Model/Commands (all commands), Spec/Settings | `C101_fields` turns the settings into the fields, then the main-level claims (C16, C20, C22, C23, C26-C30, C36, C53, C55, C56, C67, C69); prefix and standard input by `readVector_input` |
| C109 | Model/Word, Model/Bwt, Model/Commands; Spec/BwtRuns | Lemmas/BwtMorph: the rotations of φ(w) are the images of the rotations of w and those that begin inside a block; for each morphism the sorted matrix of φ(w) is a concatenation of mapped (and, where φ reverses the order, reversed) parts of the matrix of w, so the last column obeys a recursion along which runs are counted |
| C110 | Model/Devices: `File`, `Stdout` (a `LineWriter`) and `BufWriter` on a device with scripted answers; every tool as the list of its `write_all` calls | invariant `Moves`: pieces taken ++ buffer = bytes written; a flush leaves an empty buffer; without flush the buffer holds no line feed and at most `cap` bytes; refuted on a dead device |
| C111 | as C110 | the pieces taken in the whole run, including the attempt at the end, form a prefix of the output |
| C112 | as C110 | a willing device never fails a call, so every buffer is emptied |
| C113 | Model/Devices: `read_to_end`, `read_exact`, `read_char` on scripted answers | induction over the answers; the stream tools are shown to treat an error like the end of the input |
| C114 | Model/Poison: the workers of C58 with their guards in the state, unwinding that drops guards and poisons locks, `unwrap()` of poisoned locks, the main thread joining | simulation of the panicking program by the program without panics (a dead worker is a stopped one whose write locks are poisoned); potential that every step decreases; the counters cannot hold the number of all words, so no run returns |
| C115 | Model/Release: the generators of `word.rs` and the iterators of `core.rs` with the build (checked or wrapping) as a parameter; the commands `word` and `lyndonwords` use it | "whatever the checked build returns, the wrapping build returns" by congruence through all loops; partial-correctness rules for loops (no termination) for the words that stay right; equalities `order k = order k % 64` for those that do not |
| C116 | Model/LyndonLog: `main` of lyndonfactorization with its log messages and the debug-only check | `lyndonFileMsgs` by induction over the factors, the check from C03, text of the list injective |
| C117 | Model/Word, Model/Bwt, Model/Commands; Spec/BwtRuns | Lemmas/BwtDollar, BwtCut: the rotations of φ²(w)$ are cut at fixed prefixes into blocks that are mapped from the sorted rotations of w$; per morphism (BwtTmD*, BwtVtmD, BwtPdD*, BwtFibD*) the last column obeys a recursion two orders long along which runs are counted; Lyndon words: BwtLyndonD, every proper rotation is larger already on the suffix |
| C118 | Model/Lz (count_z chain); Spec/Lz (IsParse), Spec/Streams (IsRuns) | the factors are a shortest parse (C21); Lemmas/LzLaws transforms a parse of one text into a parse of the other: cut at a prefix, shift behind a prefix, rename, extend the last reference along the period, split every reference over an edited position |
| C119 | Model/BwtTool, Model/Core; Spec/Bwt | Lemmas/BwtLaws: the sorted rotations of w^k are the k-fold powers of those of w, each k times; renaming maps the sorted rotations (reversed if it reverses the order); the least rotation does not end with the least letter since moving it to the front would give a smaller one; parity from first and last letter |
| C120 | Model/Attractor (is_attractor); Spec/Attractor | from the exactness of the check (C25) and elementary facts about occurrences in renamed, reversed, concatenated and repeated texts |
| C121 | Model/Word, Model/Attractor; Spec/Attractor (SmallestAttractor), Spec/Morphism | upper bounds: Lemmas/TmAttractor doubles a set of boundaries that every factor of length >= 2 crosses (Thue-Morse, ternary Thue-Morse), Lemmas/SmallAttractor recursion T_n = T_{n-1}T_{n-2}T_{n-3} (Tribonacci), C63, C64; lower bounds: number of different substrings of a fixed prefix (C81), for single small words a checked hitting-set search (kernel evaluation, proved sound) |
| C122 | Model/Word, Model/Duval, Model/Commands; Spec/Words (LyndonFactors) | Lemmas/LyndonWords: conjugates of (powers of) the morphisms preserve the order and map Lyndon words to Lyndon words (`mor_lyndon`), so the factorization of order k+1 or k+2 is the image of that of order k with a corrected first and last factor; Lemmas/LyndonPaper (two folds of the binary paperfolding word), Lemmas/LyndonPow2; commands via C108 |
| C123 | Model/Tests: the looping test programs with their bounds as parameters | a loop passes iff every round does (`forRange_unit`, `forTestStrings_iff`); each round from C03-C06, C15, C19, C42, C43, C47, C61-C64; the assertion parts characterized exactly in Lemmas/Tests |
| C124 | Model/ReleaseTools: the library functions and tools that subtract or contain a debug assertion, with the build as parameter | `Res.Sim` (the release build does the same unless the checked one underflows or fails a debug assertion) is a congruence for all loops (Lemmas/ReleaseTools); with the totality theorems C01-C24, C83, C96, C98 it becomes equality; the exceptions are computed |
| C125 | Model/MaxRelease: the worker of `max_lyndon_word` with wrapping counters | a simulation (`PRel`, `SRel`) between this worker and the worker with unbounded counters in lock step, in both directions; lock invariants, termination and counting of C58/C94/C95 transfer; the counters are the true numbers modulo 2^32 |
| C126 | Model/Lz (`countLexparseFactors`), Spec/LexWords (`LexLen`, `LexPhrases`: the parse in terms of smaller suffixes only) | `lexFactors_count`: the phi array gives the largest common prefix with a smaller suffix; the phrases of the image of a word under its (order-preserving) morphism are computed from the phrases of the word, by induction over the order; for the period-doubling words by the square of the morphism, `c ↦ abac`, cut after 0, 1 or 3 letters (Lemmas/LexPd) |
| C127 | Model/Lz (`countLexparseFactors`), Spec/LexLaws (`LexSplit`: all ways of splitting a text into letters and copies from smaller suffixes) | the greedy parse is minimal because a copy can be shortened from the left (`SmallerSuffix.shift`); every law is then an inequality between splits of two texts: of `t` and `ut`, of `t` and its renaming, of `w^k` and `ww` (the first phrase of a power of a primitive word leaves exactly the last repetition); the non-monotone pair are the Fibonacci words of C126 |
| C128 | Model/ToolLogs: the programs in a monad that collects messages (`LogR`), message texts as bytes | the value component of the logged program is the unlogged program, by unfolding; the messages follow from the successful run split into its steps; for `fibonacci_word` an exact invariant of its loop (current and previous Fibonacci number, the write position with its overshoot by one at every other round) |
| C129 | Model/AttractorLog: `is_stringattractor` with its messages; Spec/SuffixTree: the suffix tree by forks of the text, without any algorithm | the invariant of `lcp_intervals` (Lemmas/LcpTree) is strengthened to nodes = leaves or branching words, labels, distinctness and postorder, which gives the tree (Lemmas/SuffixTree); uniqueness of the postorder list; induction over the checking loop (Lemmas/AttractorLog); size: every suffix is the word of a node, and an edge is numbered by its leaf or by a pair of neighbours at which its interval forks (Lemmas/TreeSize) |
| C130 | Model/Core: `border_array`, `smallest_period`, `is_primitive`; Spec/Word: borders, periods, powers | combinatorics on words proved from scratch in Lemmas/PeriodLaws (root, commutation, Fine and Wilf via Mathlib's `List.HasPeriod.gcd`), transferred along the exact characterisations C05-C07 |
| C131 | Model/Core: `duval`; Spec/Words: Lyndon factorizations, pieces | transferred along `duval_spec`; merging by induction on the number of factors around a Lyndon word, the others by the argument that a factor is smaller than its proper suffixes and not smaller than later factors (Lemmas/DuvalLaws) |
| C132 | Model/Mus, Model/Attractor; Spec/Mus: minimal unique substrings | the substrings that occur once form an up-set of intervals whose minimal elements are the reported ones (Lemmas/MusLaws); the laws follow from that of the up-set along the exact characterisation C23 |
| C133 | Model/Core: the `as u32` casts of `compute_plcp`, `compute_psv`, `compute_nsv` | the invariants of C10 and C11 without the length limit; totality of the pointer chain of `compute_psv` from entries below their index; two rounds of `compute_nsv` computed on the refuting array, then induction on the fuel (Lemmas/BigArrays) |
| C134 | Model/SmallLogs: the remaining tools that log, in the monad `LogR` | the value component is the unlogged program; the messages by unfolding along the branches of the run (refused order or tables, file that cannot be opened, missing input, computation) |
| C135 | model: `get_mus` and the arrays of C23, the generators of C43 and C45. proof: one application of the morphism maps the minimal unique substrings of a word to those of its image (start 2i+1, length 2l-2 or 2l-1): occurrences of four letters of a Thue-Morse image have a fixed parity because no letter occurs three times in a row; in a period-doubling image a letter b fixes the parity, and the longest repeated suffix occurs at a third place, so an occurrence at the end of the text never makes a difference. Base: order 4, evaluated by the kernel through C23. Powers of two (C49): a list of unique substrings, none containing another, such that every unique substring contains one of them, is the list of the minimal ones; a substring with two letters b contains one of the list, one with at most one b occurs again one block further or, in the last block, one block earlier. |
| C136 | model: `get_mus`, `bwt_from_text_by_sa`, `number_of_runs` and the main of count_r as in C23, C26 and C28. proof: write a minimal unique substring as a letter c and a word w; the rows of the suffixes that begin with w are an interval with at least two rows, exactly one of which has c in the transform, so this row is at a border of a run (the step lemma of C129 for the attractor); different minimal unique substrings have different starts and the row of the whole text is a border too, so their number plus one is at most twice the runs. The reverse follows from the reversal law of C132. |
| C84 | entropies of one text against each other | log-sum inequality (concavity); contexts of length k+1 refine those of length k |

## 5. Findings: where the code violates the property

Each is proved as a theorem about the model (`..._refuted` or `..._limit`), beside the part that does hold.

| Property | Violation |
|---|---|
| C16 | `--use-matrix` with the sentinel panics from 99 bytes on; without sentinel the two methods differ |
| C22 | `count_lexparse` of a one-letter text is not decodable (it does not tell `aaa` from `aaaa`...) |
| C24 | `mus` appends no sentinel and reports suffixes that are not unique substrings |
| C25, C26 | an empty attractor of the empty text is rejected; non-UTF-8 texts panic in the report; the sentinel alone underflows |
| C29 | all 256 byte values: the `u8` counter overflows (debug: panic; release: reports 0) |
| C30 | byte 255 is not in the move-to-front table |
| C31 | release build loses runs of more than 255 letters |
| C33 | `rle_zero` drops the letter after a run of zeros |
| C35, C74 | `escape` without `-p` writes nothing; the README pipeline reports 1 run for every input |
| C37 | `BinaryStringGenerator` orders strings by their reversal and never ends; length 64 never yields the all-ones string, longer lengths panic |
| C43, C44, C51, C52 | size computations overflow: panics from orders 63, 61, 30, 30 on |
| C47, C48 | `is_necklace` accepts prenecklaces (`aba`); the de Bruijn words are too short for every even order from 4 on |
| C49 | the last byte of `power2_sequence` is 0 |
| C55 | `lyndonfactorization` panics on the empty input and leaves out a final factor `[0]` |
| C58 | lost update, deadlock, and `i32` overflow of the counters before the end; `second_criteria` (fewer bytes `'0'`) never applies, because the texts consist of the bytes 0 and 1: the record is the first of the best (`C58_first_best_partial`) |
| C94 | the reports of `max_lyndon_word` print under `length=l` what belongs to the words of length `l + 1` (`C94_label_refuted`); with two or more workers a report can be skipped, because counting and checking are two critical sections (`C94_missed_refuted`) |
| C59 | `ba` has two distinct Lyndon factors, the function returns 1 |
| C68 | `mtf`, `rle`, `reverse`, `escape` with input file = output file leave an empty file |
| C78 | `lyndonfactorization` prints the prefix length option in place of the length of the text |
| C83 | `is_stringattractor` without positions names the sentinel, which is not in the file, as an uncovered substring |
| C89 | a file name with a blank breaks the result line; `mus` prints a list with blanks as one value |
| C90 | `compute_stats.sh` announces the columns z, r and prints r, z; a file name with blanks can forge a number. |
| C102 | exit status 2 of `is_stringattractor` means both "not an attractor" and "command line not understood" |
| C103 | every command of `compute_stats.sh` is rejected by the tools (`--input`, `-d`), so it never prints a number; the README's `count_sigma --file X` and the word names `thuemorse`, `perioddoubling`, `debruijn`, `FibonacciLyndonFactor` are rejected; `escape -f` does not take a comma separated list as its help says |
| C104 | `rle` panics for every command line in builds with debug assertions (`-o` and `-h` declared twice); in release builds `-o` never selects `--onlyzero` and `-h` is not help |
| C106 | release build of `rle`: runs longer than 256 lose a multiple of 256 letters silently, runs of length 256, 512, ... panic unless last |
| C34, C68 | `escape` opens (and so empties) its output file before it checks its tables: a refused table still destroys the output file |
| C110 | `word` and `randomstring` on the standard output and the report of `lyndonfactorization -o` are not flushed: with a full disk or a closed pipe the output is lost and the exit status is 0 |
| C113 | `mtf`, `rle`, `escape` and `count_runs` treat a read error (and an interrupted read) as the end of the input and end with status 0 |
| C58, C114 | with overflow checks no call of `max_lyndon_word` ever returns: an `i32` counter overflows (`C58_overflow_refuted`), the worker panics, poisons its locks and takes the call with it, unless the workers deadlock at a report before (`C114_never_returns`, `C114_outcomes`, `C114_can_hang`) |
| C115 | without overflow checks `1 << k` takes `k` modulo 64: `word -n period-doubling -k 66` succeeds and writes the word of order 2, the same for paper-folding, quaternary-paper-folding and power2 from order 64 on; `fibonacci_word(255)` is `a`; `LyndonWordGenerator` with 0 or more than 256 letters never ends; `BinaryStringGenerator` above length 64 repeats its first 64 symbols; `lyndonwords -s 160` prints wrapped bytes |
| C123 | the de Bruijn test cannot find the defect C47 with any bound; the border array test accepts an array of zeros, the period test any period; the tests on generated strings visit only half of the announced rounds |
| C124 | `entropy --order 1` on an empty input panics with overflow checks; the release build prints `NaN` (`C124_entropy_empty_input`) |
| C125 | the release build of `max_lyndon_word` ends with wrong counters (1717960698 words of length 40 instead of 27487764474, `C125_wrong_counters`) and can report a negative number of words (`C125_negative_report`); the deadlock at a report remains (`C125_can_hang`) |
| C128 | `fibonacci_word` logs one written character too many for every odd order (`C128_written_refuted`); `bwt --use-matrix --no-dollar` logs as `text` a rotation of the input with a sentinel from 100 bytes on; the tool `word` never calls `env_logger::init`, so the messages of the generators are never shown by it |
| C133 | `compute_nsv` does not terminate on every array with more than 2^32 entries (C133_nsv_hangs: 2^32+1 equal entries and a smaller one), and `compute_psv`/`compute_nsv` confuse index 2^32-1 with the code `INVALID_VALUE`; all tools stay below, since the suffix sorter uses `i32`. |
