# Formal model of jonmaiga/tests-for-randomness in Lean 4

## Approach

The C++ sources in /repo are read as text and transcribed function by function into Lean
definitions (`lean/Verif/Model/*.lean`), each citing the file and lines it models. Specifications
that say in plain mathematical terms what a function should do live in `lean/Verif/Spec/*.lean` (or at
the head of the property file when a line or two), helper lemmas in `lean/Verif/Lemmas/*.lean`, and the
property theorems in `lean/Verif/Props/*.lean`. Theorem `Cnn_…` belongs to property `Cnn` of
`properties.jsonl`; each is followed by an `example` that exhibits a non-trivial instance of its
hypotheses. `MANIFEST.json` lists the theorems per property, `AXIOMS.md` the axioms each depends on.

### Conventions

* A value of type `uintW_t` is a `BitVec W`; arithmetic wraps exactly as C++ unsigned arithmetic.
  Where integral promotion matters (8/16-bit types compute in `int`) the model computes in `Int` or at
  32 bits and signed overflow is a fault.
* Undefined behaviour and exceptions are outcomes of `R α = Except Fault α`: `oobIndex`,
  `shiftTooLarge`, `divByZero`, `signedOverflow`, `emptyDeref`, `badCast`, `thrown`. The project's
  `assertion` macro is *not* a fault: in a development build it prints a message and execution
  continues, in a release build it is a no-op (assertion.h/.cpp). So the model never relies on it.
* Mutable captures of lambdas become explicit state; loops become folds or structural recursion.
  Loops that may run for ever are given with fuel (`none` = still running) or as partial fixpoints,
  so that termination is something to prove.
* A `stream` is a state machine (`Stream w`: a state type, a state and a step), so a property "for
  every stream" covers every C++ callable whose captures are its state.
* `double`: (a) exact, over ℝ or ℚ or any field `K` (this is the default and is said in the comment
  of the definition); (b) where the property is about rounding, explicit round-to-nearest-even with 53
  bits over ℚ (`Model/Float`): rescaling of words to [0,1), bin/gap/coupon indices, binomial
  coefficients. No claim is made on the rounding error of case (a),
  except where C120 gives one (Model/Rounded).
* `std::sort` is a relation: any sorted permutation of the data.
* Threads: a small-step relation with nondeterministic scheduling (`Model/Jobs`), one step per access
  to the shared state under the mutex; sequential consistency is justified by the mutexes (trusted).
* The console is not modelled, except where a property is about the lines printed (-inspect,
  -exhaust). Text files are `String → Option String`; writes succeed.
* Calibration (C100–C104): `average` is the plain average over the finite set of *all* inputs of the
  given length, written out in `Spec/Average.lean`; no probability theory is assumed.

## Plan per property

| id | property | model and proof |
|----|----------|-----------------|
| C01 | Rotations move every bit to the documented place and undo each other | Model/Bits: rol/ror on BitVec w with an explicit fault for out-of-range amounts; bit-level theorem by getLsbD. |
| C02 | flip_bit changes exactly the addressed bit | Model/Bits; bit extensionality. |
| C03 | reverse_bits is the bit reversal at all four widths | Model/Bits: the mask/shift code at each width, transcribed; bit i theorem by decision over the (finite) bit index after unfolding getLsbD - for every word. |
| C04 | byte_swap/byteswap reverse the byte order | Model/Bits: byte_swap transcribed; byteswap as list-of-bytes reversal. |
| C05 | bit_floor / bit_ceil / bit_width are the documented powers of two | Model/Bits, UB shift as fault. |
| C06 | for_each_bit visits every bit once, LSB first | Model/Windows: fold with callback state; equality to the flat bit list. |
| C07 | for_each_bit_block delivers consecutive non-overlapping blocks | Model/Windows: the mutable block buffer and index are modelled literally; invariant relating buffer prefix to bits seen. |
| C08 | sliding_bit_window delivers consecutive k-bit little-endian values | Model/Windows: v and c modelled literally with 64-bit v. |
| C09 | bit_vector behaves like a growable list of bits | Model/BitVector: byte array model; refinement relation to List Bool; theorem over op lists. |
| C10 | RRC transforms are bijections and compose from reverse/complement/rotate | Model/Streams; bijectivity from explicit inverses. |
| C11 | RRC source lists cover every transform of every stream | Model/Streams; the source list is exactly streams x transforms. |
| C12 | 8- and 16-bit mixers are bijections | Model/Mixers; factor lemmas: xorshift-right invertible, odd multiply invertible; int promotion modelled in Int for 8/16 bit. |
| C13 | 32-bit mixers are bijections | Model/Mixers; same factors + triangular T-function lemma for `(x+a)^(x<<k)`. |
| C14 | 64-bit mixers are bijections | Model/Mixers; same factors + rotation factor `x^ror a^ror b` through the group algebra (Frobenius). |
| C15 | Combiners lose no information from either argument | Model/Mixers; slot-wise bijectivity. |
| C16 | Searched mixer constructions decode safely | Model/Construct; reading constants through the BitVector model. |
| C17 | Searched mixer constructions are bijections exactly for odd multipliers and nonzero shifts | Model/Construct; factor lemmas of C13/C14, converse by explicit collisions. |
| C18 | Weyl-sequence generators have full period and exact closed form | Model/Prngs; closed form by induction, period by odd increments. |
| C19 | Truncated generators are exactly equidistributed | counting over ZMod 2^64. |
| C20 | xorshift generators have period 2^n-1 on nonzero states and never leave them | Model/Prngs; linear map over GF(2), characteristic polynomial certificate evaluated by kernel computation, order of x modulo it. |
| C21 | xorshift128+, xoroshiro128+, xoshiro128 have period 2^128-1 | same technique, 128-bit states. |
| C22 | SFC generators are reversible and have long minimum cycles | Model/Prngs: explicit inverse, counter component. |
| C23 | PCG generators have full period and a reversible output | Model/Prngs: LCG full period (Hull-Dobell for 2^64), output inverse. |
| C24 | minstd outputs stay in range and have full period | Model/Prngs: orderOf 48271 in ZMod (2^31-1). |
| C25 | A generator made from a mixer iterates it | Model/Streams; iterate. |
| C26 | Counter streams produce start+(k+1)*increment mod 2^64 | Model/Streams; closed form by induction. |
| C27 | Data streams replay the data cyclically | Model/Streams; index modulo size. |
| C28 | Bit isolation packs bit b of w consecutive values | Model/Streams; bit by bit. |
| C29 | Derived streams transform pointwise and preserve information | Model/Streams; pointwise equations, injectivity. |
| C30 | Streams over shared test data never hand out an index twice | small-step model: shared counter; list of consumer ids is the schedule. |
| C31 | Mixer and combiner streams are pointwise compositions | Model/Streams; pointwise equations. |
| C32 | A ranged stream iterates exactly the first n values, repeatably | Model/Streams: iterator protocol (begin/end/++/==) modelled literally. |
| C33 | run_jobs runs every job exactly once and collects each result exactly once | Model/Jobs: small-step relation of the worker threads, queue mutex and collect mutex; invariant over reachable states. |
| C34 | run_jobs never deadlocks and always finishes | same; progress + variant. |
| C35 | Evaluation results do not depend on the thread schedule | Model/Evaluate on top of Jobs. |
| C36 | evaluate_multi_pass visits consecutive powers of two and stops on request | Model/Evaluate: the pass loop with the callback as state machine; powers up to 63, above is a shift fault. |
| C37 | The test command reports completion exactly once per run | Model/Evaluate; same loop with the command's callback. |
| C38 | Battery results behave as a map from test key to result list | Model/Results: association list keyed by test; laws of add/find. |
| C39 | The test catalogue is complete and unambiguous | Model/Results: the catalogue as data; decision over the finite key type. |
| C40 | Sample budgets: splitting and limiting | Model/Budget: unsigned 64-bit arithmetic, double multiplications exact. |
| C41 | binary_square_matrix stores bits faithfully | Model/BinaryRank: row-major bytes; get after set. |
| C42 | Strict avalanche histogram is exact | Model/CountStats: histogram equals the count of pairs (word, flipped bit) with given Hamming distance. |
| C43 | Bit independence counters are exact | Model/CountStats. |
| C44 | Serial avalanche counts consecutive differences | Model/CountStats; histogram against positions of the stream. |
| C45 | Gap test counts every completed gap once | Model/CountStats; segments spec in Spec/Segments; rounding of the lower-half test through Model/Float. |
| C46 | Coupon collector segments are exact | Model/CountStats; Spec/Segments. |
| C47 | Coupon probabilities are the exact distribution | exact rational model of the formula; counting functions. |
| C48 | Divisibility counts and probabilities | Model/CountStats; counting words divisible by d in every residue block. |
| C49 | Runs statistic counts maximal runs | Model/CountStats; maximal runs as a list function. |
| C50 | Permutation histogram counts windows | Model/CountStats. |
| C51 | Binary rank is the rank over GF(2) | Model/BinaryRank: literal elimination (no row swaps: the first one of each row is the pivot); Matrix.rank over ZMod 2. |
| C52 | Matrices are cut from the stream without overlap | Model/BinaryRank; position of every matrix bit in the stream's bit list. |
| C53 | Rank probabilities are exact | exact rational model; count of matrices of rank r. |
| C54 | berlekamp_massey returns the linear complexity | Model/LinearComplexity: literal loop; Massey's theorem by invariant. |
| C55 | Linear complexity probabilities are exact | counting by induction with Berlekamp-Massey. |
| C56 | Linear complexity statistic tallies every block once | Model/LinearComplexity. |
| C57 | Histogram bins conserve the sample | Model/Hist, RealStats: bins as folds; totals by induction. |
| C58 | chi2_stats degrees of freedom and sign | Model/RealStats over ℝ. |
| C59 | G statistic is well defined and non-negative | Model/RealStats over ℝ; Gibbs inequality. |
| C60 | Kolmogorov statistic is the sup distance | Model/RealStats; supremum over ℝ of |F_n - F| as IsLUB. |
| C61 | Binomial helpers equal the textbook functions | Model/RealStats, plus Model/Float for the double version. |
| C62 | Correlation coefficients stay in [-1,1] | Model/RealStats; Cauchy-Schwarz. |
| C63 | get_ranks and Spearman correlation | Model/RealStats; argsort as relation; counterexample to the textbook coefficient. |
| C64 | merge_bins conserves mass and meets the threshold | Model/RealStats over an ordered field; invariant of the merging loop. |
| C65 | Text helpers | Model/Text over List Char. |
| C66 | Strength classification is monotone and has the documented thresholds | Model/Analysis over ℝ. |
| C67 | The overall verdict is the worst sub-result | Model/Analysis; sort relation; maximum over sub-results. |
| C68 | Tables render aligned | Model/Files. |
| C69 | Binary files round-trip | Model/Files: byte-list file. |
| C70 | PPM images | Model/Files: the pixel loop with fuel. |
| C71 | SFFS search never worsens and keeps its sets consistent | Model/Sffs: nondeterministic minimiser as relation. |
| C72 | Generated seeds are distinct and of the requested number | Model/TestSetups: the rejection loop with fuel; Nodup invariant. |
| C73 | Evenly seeded data streams start at disjoint segments | Model/TestSetups. |
| C74 | PRNG test setups use distinct nonzero seeds | Model/TestSetups. |
| C75 | Rescaling to [0,1) and integer binning agree | Model/Float: round-to-nearest-even to 53 bits over rationals. |
| C76 | z-score p-values are two-tailed normal tail probabilities | Model/RealStats: exact Gaussian cdf (Mathlib's gaussianReal); symmetry and limits. |
| C77 | Sources of mixer and combiner tests | Model/TestSetups; the list of sources is computed exactly, their first values pointwise. |
| C78 | The mean test reports the z-score of the mean | Model/TestSuite; the z-score as closed formula of the stream's first n values. |
| C79 | The uniformity test is Pearson's test over equal bins | Model/TestSuite, Spec/Pearson: Pearson's sum over equal ranges of words. |
| C80 | The runs test computes the Wald-Wolfowitz z-score | Model/TestSuite; against the run counts of C49. |
| C81 | The serial avalanche test | Model/TestSuite; cell = (previous bit row, weight); Spec/Pearson. |
| C82 | The gap test | Model/TestSuite; Spec/Segments + Spec/Pearson with dyadic probabilities. |
| C83 | The coupon test | Model/TestSuite; same with the coupon probabilities of C47. |
| C84 | The divisibility test | Model/TestSuite; same with the divisibility law. |
| C85 | The permutation test | Model/TestSuite; window size formula, index arithmetic, saturation of the 8-bit counters. |
| C86 | The binary rank tests | Model/TestSuite; ranks of C51 and probabilities of C53. |
| C87 | The linear complexity tests | Model/TestSuite; C54/C55. |
| C88 | The avalanche tests for mixers | Model/TestSuite; SAC and BIC statistics as closed formulas; affine mixers. |
| C89 | The catalogue as a whole | Model/Suite; every test of the catalogue composed: what is read, when a fault can occur, what is reported. |
| C90 | p-values of chi-square statistics | Model/Gamma: both loops (series and Lentz continued fraction) with the iteration limit; convergence, error bound and stop test proved over ℝ against the chi-square law (Spec/ChiSquareLaw, a measure). |
| C91 | The logarithm of the gamma function | Model/Gamma: log_gamma against Real.Gamma with an explicit error bound. |
| C92 | Fisher's method | Model/Combine; -2 sum log p has the chi-square law under uniform p (Spec/UniformCube: Lebesgue volume). |
| C93 | The Anderson-Darling statistic | Model/Combine; the statistic equals the integral definition in Spec/AndersonDarling; the p-values are compared with the published critical values there (Props/AndersonLevels: monotone branches, bounds of the correction polynomials, Taylor bounds of exp at the critical values). |
| C94 | Median, mean, variance and rescaling | Model/Combine over ℝ. |
| C95 | Paired samples and correlation tests | Model/Combine over ℝ and BitVec. |
| C96 | The test report | Model/Commands: file system and batteries; final file contents for every run. |
| C97 | The self-check of the tests | Model/Commands: lines printed for every setup; which tests are flagged. |
| C98 | The per-test table | Model/Commands: the table as function of batteries. |
| C99 | -exhaust and the command line | Model/Commands: ranking and file operations; argument dispatch, exit code. |
| C100 | Chi-square tests are calibrated | Spec/Average: mean of the statistic over all inputs, computed by linearity and counting. |
| C101 | The mean test is (almost) calibrated | Same; first two moments of the sum of uniform words. |
| C102 | Calibration of the serial avalanche test | Same; distances of consecutive words. |
| C103 | Expectations of the mixer avalanche tests | Same, averaging over all mixers (functions). |
| C104 | Calibration of the runs test | Same, averaging over all arrangements of a above and b below. |
| C105 | The score of the mixer search | Model/Score: get_score over the battery and its analysis; run of evaluate_multi_pass. |
| C106 | The mixer search command | Model/Score over the search machine of Model/Sffs. |
| C107 | Obviously bad generators are rejected | Lemmas/Tails bounds the chi-square and normal tails (Chernoff); Props/Power feeds the closed forms of C79/C89 into them and through the battery (C36, C96). |
| C108 | Linear generators are rejected | Props/PowerLinear: blocks have complexity at most L, so all used cells of C87 are empty; recurrences of the generators by Cayley-Hamilton on the GF(2) state; report by C96. |
| C109 | Words in a hyperplane are rejected | Props/PowerRank: an exhibited kernel vector keeps every matrix of C86 below full rank, so the full-rank cell is empty and Pearson rejects; battery and report as C108. |
| C110 | Mixers with predictable bits are rejected | Props/PowerBic: each predictable pair contributes exactly n to the statistic of C88; predictable pairs of shift-multiply-shift mixers from odd multiplication being triangular; report as C108. |
| C111 | Subjects with too many or too few runs fail at the first power of two | Lemmas/Mills (Mills bound of the normal tail), Props/PowerRuns: the z-score of C80 against 6.2; the streams of the catalogue are evaluated by the kernel; report as C110, with the names of the failed tests. |
| C112 | The search returns a local optimum | Props/SffsLocal: an invariant of the small-step search of C71: every stored vector below the current cardinality has had all its neighbours evaluated, every one above it its smaller neighbours; at the end the current cardinality is the largest. |
| C113 | What the meta analysis accepts | Lemmas/KolmogorovSeries: alternating series, convexity of the tail, Poisson summation (second form of Kolmogorov's law) and rational bounds of exp; Props/MetaTest: the loop is the truncated series, thresholds, and the range of D for few p-values. |
| C114 | Incomplete beta function, t-test and F-test | Model/SpecialFunctions (partial_fixpoint for the recursion, the Lentz loop over any ordered field, rounded doubles for the recursion guard), Props/SpecialFunctions: reflection of the guard, monotone rounding, kernel evaluation of the loop over the rationals, C91 for the gamma factors. Not proved: accuracy of the continued fraction in general. |
| C115 | Asymptotic harmonic numbers and the second Kolmogorov law | Props/SeriesFunctions: Euler-Maclaurin bounds of log(1+1/n) by derivatives, Mathlib's Euler-Mascheroni constant; the tail of the theta series (C113). |
| C116 | AES and RDRAND generators | Model/HardwarePrngs (the intrinsics after FIPS 197 and Intel's description; RDRAND as an arbitrary sequence of outcomes), Props/HardwarePrngs: S-box inverted over all 256 bytes, MixColumns inverted algebraically, injectivity composed; counting by bijections. |
| C117 | Mersenne twister | Model/Twister (the engine as the standard defines it), Props/Twister: windows of 624 words determine the sequence in both directions; linear map on the 19937 bits that matter, Cayley-Hamilton (C108). |
| C118 | The shipped catalogue | Model/Catalogue (all get_mixers, get_prngs, get_combiners), Props/Catalogue: names by evaluation; periods from C18-C24, C117; the report from C96 with the rejections of C107, C108, C111, C119 on one common list of lines. |
| C119 | Samples that are too even | Props/PowerEven: exact counts per bin, so chi-square is 0 and the p-value 1 (C90); C96 for the report. |
| C120 | Rounding errors of the statistics | Model/Rounded: the statistics with every operation rounded (Model/Float). Props/Rounding: a relative-error calculus (Lemmas/Rounding) over the loops; the comparison with the exact model of C58-C60; Minkowski for perturbed expectations. |
| C121 | Pictures and data files | Model/ToolRun (ppm_command, build_trng, export_rdrand); Props/ToolRun: C70 for the image data, a block index lemma for the position of each byte; C69 for the data files. |
| C122 | A whole run of -test | Model/ToolRun (testExec in toolMain); Props/ToolRun: C118_report_8..64 composed, paths distinct by injectivity of decimal notation. |
| C123 | False alarms of the mean test | Props/FalseAlarms: exponential moments of a word (product of hyperbolic cosines over its bits), Markov; Lemmas/MillsLower: lower bounds of normal tails; union over the powers. |
| C124 | False alarms of the runs test | Lemmas/RunsTail: the centred signs and the products of neighbours are sub-Gaussian (Hoeffding lemma, induction over the words); Lemmas/RunsReal: the z-score in terms of both; Props/FalseAlarmsRuns: Markov, union. |
| C125 | The end of the mixer search | Model/Score searchLastEvaluation; C106 gives the mixer and its score, C37 the single printed battery, C35 (schedule independence) that both evaluations stop at the same size. |
| C126 | The self-check of -inspect-test on the sources to be rejected | Model/Commands inspectTests (C97); Lemmas/CounterRuns counts the runs in one bit of a counter exactly enough for the z-score; C80, C88, C110, Gaussian tail bounds (Lemmas/Mills, MillsLower), C113 for the meta analysis of one value, C35 for the schedules. |
| C127 | Numbers and p-values as text | Model/Console formatDouble (printf %g on exact numbers), Spec/Decimal (reading a decimal text back); Lemmas/Numbers. |
| C128 | The report of a battery and the histogram | Model/Console reportText and drawHistogram; C66, C67, C68, C127 for the parts; binary64 rounding (Lemmas/Float) for the bars. |
| C129 | Self-check: gap, divisibility, binary rank and linear complexity | C126 machinery (pass_of_none); Lemmas/Patterns counts lone misses and pairs in the segments of C82/C84; the rank of matrices that satisfy a recurrence (C86) and the constant blocks of a high counter bit (C87). |
| C130 | The output of the mixer search | Model/SearchText (texts and the calls of the callback, as a relation over the steps of Model/Sffs), Spec/MixerCode (an interpreter of the printed statements); invariant over the reports. |
| C131 | What the tool prints | Model/ToolText: the texts and the calls of print_battery_result around the models of the commands; C37, C96, C97, C99 and C128 for what they say. |
| C132 | Self-check: uniformity | The sample sizes of the bins are counted over the cube of free bits of a view (at most two bits per carry); the lower tail of the chi-square law by a Chernoff bound gives the p-value; constants by C107, 8 and 16-bit counters by C119. |
| C133 | Self-check: serial avalanche | C81 gives the groups; greedy merging leaves the middle cells of the middle row alone, so an empty one contributes its whole expectation; rotations and reversals keep the number of set bits. |
| C134 | Self-check: permutation test | C85 gives the windows; a periodic source has at most one window value per position of the period, so half of the cells are empty; the windows that see only high bits of a counter are counted residue by residue (kernel computation over the rotations). |
| C135 | Self-check: coupon test | C83 gives the segments; Pearson's statistic is at least the sum of E - 2O over any cells, so bins that stay (nearly) empty reject. The leading bits of a value bound its coupon (rounding is monotone); the views are then periodic or slow patterns of a few leading bits, settled by arithmetic and by kernel computation over residues. |
| C136 | The first part of -inspect-test is always the same | The twelve self-check theorems (C126, C129, C132-C135) put together through C97 and C131; the texts are compared by kernel computation. |
| C137 | The data files are read once per run | Model/DataCache: the two function-local statics, g_config and the files as a state, histories as lists of events. Invariant: a cache holds the contents at the first successful request (Spec.firstSeen, computed from the events alone). |
| C138 | The table of times of -inspect-test | Model/SpeedCommand; the callback and the passes as in C98, then C98_table for the single row; the mean column from its sample limit. |
| C139 | Making the data files: the instruction, the enumeration, the progress | Model/DataBuild: loop of export_rdrand as the first 2^p values of a stream, enumeration as a list of entries; reading back with C69. |
| C140 | How many jobs and threads a battery has | Model/Threads: the 32-bit thread count of run_jobs; invariant of the small-step model of C33/C34 for the number of workers, an explicit schedule for the parallelism, counting of create_test_jobs over the setups of C96. |
| C141 | Vectors of rescaled words and sums | Model/Vectors: the loops over streams and vectors, accumulate with its unsigned long long accumulator in binary64; inductions. |
| C142 | Streams over the data files | Model/DataStreams on top of the cache of C137 and the circular stream of C27; composition, uniqueness of the words of given bytes. |
| C143 | Tables can be read back | Model/Cells: the overloads of app as texts (std::to_string in decimal, doubles as in C127); injectivity by splitting the text at newlines, recovering the widths from the header line, stripping the padding. |
| C144 | What a test can see of a source | No new model: from the characterisations of the twelve tests by their values (C42, C43, C81, C86, C87) and take; then through create_test_jobs to EvaluateOutcome and PossibleRun. |
| C145 | What each test looks at | No new model: loops compared step by step, or the characterisations C50, C53, C78, C81, C87. |
| C146 | Which results a battery has | Props/Reported, Props/SerialRows (table of the serial avalanche rows: the greedy groups counted by a fold, monotone in the number of pairs); the budgets as floors of real powers, the exact results of C78-C88 and the multiset of results of C35. |
| C147 | The published algorithms | Spec/Published gives the algorithms as short programs whose meaning is arithmetic on natural numbers; Props/Published proves, by evaluating them on bit vectors and an induction on the position, that the models of Model/Mixers, Model/Prngs and Model/Twister compute them. The specification was written from the publications, as far as known, and compared with the code; known answers are checked beside it. |
| C148 | Whether the sources of a generator overlap | No new model: the loop of generate_seeds when every word is new gives a permutation of the pool of C72; the largest words of the pool are computed by the kernel; two counters meet within n steps exactly if their difference times the inverse of the increment is below n. For pcg, xorshift and minstd_rand the distances are discrete logarithms, checked by jumping; the overlaps of xorshift and minstd_rand are jumps too (a power of the polynomial of the generator, a power modulo 2147483647). |

## Trusted base

* Lean 4.33.0's kernel and the Mathlib definitions that appear in theorem statements.
* Axioms: at most `propext`, `Classical.choice`, `Quot.sound` (per theorem: `AXIOMS.md`). No axioms of
  our own, none from compiled code.
* The transcription C++ → Lean was done by reading; the code was never executed here. The C++ semantics
  assumed: two's complement, 32-bit `int`, 64-bit `size_t`, LP64.
* Exact arithmetic in place of IEEE double wherever a definition says so (see Conventions); C120
  bounds the difference for the values of the chi-square, uniformity, mean, runs and Kolmogorov-Smirnov statistics.
* `std::mutex`/`std::thread` behave as in the standard (Model/Jobs).

## What is modelled

| file in /repo | modelled in | not modelled |
|---|---|---|
| core/src/util/bitwise.h | Model/Bits, Windows | – |
| core/src/util/bitvector.h | Model/BitVector | – |
| core/src/util/algo.h | Model/Streams, RealStats, Text, Combine | – |
| core/src/util/math.h, math.cpp | Model/RealStats, CountStats, Combine, Gamma, TestSuite, SpecialFunctions | – |
| core/src/util/jobs.h | Model/Jobs | thread creation failure |
| core/src/util/fileutil.h/.cpp, table.h, ppm.h, trng_data.h | Model/Files, Cells, Commands, DataCache, DataStreams, DataBuild | I/O errors of the OS |
| core/src/util/statistic_analysis.h, format_result.h | Model/Analysis, Results, Console | negative zero and non-finite numbers as text |
| core/src/util/assertion.*, config.* | conventions above; paths in Commands, state in DataCache | – |
| core/src/util/random.h, timer.h | – | whole (std::random_device, clocks) |
| core/src/stream.h, streams.h, prng.h, mixer.h, combiner.h, rrc.h, rrc_streams.h | Model/Streams | – |
| core/src/types.h, test_definitions.h | Model/Results, Budget, TestSuite, Suite | – |
| core/src/evaluate.h | Model/Evaluate, Jobs | – |
| core/src/statistics/basic.h, avalanche.h, serial_avalanche.h, binary_rank.h, linear_complexity.h, coupon.h, gap.h, divisibility.h, run.h, permutation.h, uniform.h | Model/CountStats, BinaryRank, LinearComplexity, TestSuite | – |
| core/src/statistics/chi2.h, g_test.h, kolmogorov.h, correlation.h, andersondarling.h, fishersmethod.h | Model/RealStats, Combine, Rounded (chi2, kolmogorov with rounding) | – |
| core/src/statistics/tests.h | Model/RealStats, SpecialFunctions, Rounded (z_test with rounding) | – |
| core/src/statistics/distributions.h/.cpp | Model/RealStats, Gamma, Combine, SpecialFunctions | accuracy of Marsaglia's approximation inside anderson_darling_cdf away from the four critical values of C93 |
| impl/src/mixers*.h, combiners*.h, prngs*.h (and external pcg, sfc, aes, rdrand; std::mt19937, std::minstd_rand) | Model/Mixers, Prngs, Twister, HardwarePrngs, Catalogue | the intrinsics are modelled after their specification |
| tool/src/search/mixer_constructions.h, search_configs.h | Model/Construct, Score, SearchText | – |
| tool/src/search/search_command.h | Model/Sffs, Score, SearchText | – |
| tool/src/util/sffs.h, sffs_types.h, sffsutils.h | Model/Sffs, Score, SearchText | sffs_fitness_test_as_prng (never instantiated; it would not compile, because seed_data does not convert to T) |
| tool/src/util/test_setups.h, stream_sources.h | Model/TestSetups | – |
| tool/src/command/*.h, main.cpp | Model/Commands, ToolRun, ToolText, SpeedCommand, DataBuild | – |
| unittest/, results/, external/ (other) | – | whole |

## Findings

Behaviour of the code that the proofs brought to light. Each is either a theorem (named) or follows
from the cited code directly.

Undefined behaviour and faults
* `bit_ceil` above 2^(w-1) shifts by the width (C05). Powers ≥ 64 or negative in `evaluate_multi_pass` (C36).
* 16-bit mixer constructions multiply in `int` and overflow (C17_u16_overflow).
* Empty inputs: uniform test with n = 0 (C79_empty), bins with n = 0, `berlekamp_massey` of no bits,
  median of nothing (C94_median_empty), Kolmogorov of no data (NaN p-value), SFFS with negative minimum.
* Single-column table header (C68_one_column). Gap cap 0 and coupon length 0 index out of bounds, divisor 0
  divides by zero, permutation window ≥ 64.
* Permutation size for at most 46 bits is NaN converted to uint64 (C85_small; the limiter excludes it).
* An existing but empty trng/drng file makes the test command divide by zero.
* Anderson–Darling `n*n` overflows int for n > 46340 when A² is small (C93_overflow).

Wrong or surprising results
* mixer "split_mix" and "split_mix_v13" of mixers64 are the same function.
* `create_bit_flipped_xy` flips bits of the mixer's output instead of its input (C95_bit_flipped).
* Iterating a ranged stream draws n+1 values for n (C32).
* The boost combiner is not injective in its first argument (C15).
* `run_jobs` with no threads runs nothing, silently (C33/C34).
* `limit_n_slow` returns 2^(6k)-1 for 2^(7k) (C40_slow_powers); `split_test` uses more samples than
  requested for max < n < 2 max (C40); the isolated-bit rank test reads about w·n values.
* Serial avalanche never evaluates row w (C81); its row statistic averages df + 1 - P(row) (C102).
* The self-check of the mean test in `-inspect-test` prints PASS whatever the sources: with 2^25 values the test
  has no result (C126_mean).
* Runs overcounted by one when data starts at the cutoff (C49_runs); runs_stats divides by n instead of
  n-1, the z-score has variance n/(n-1) (C104); no result iff a = 0, b = 0 or a = b = 1 (C80).
* Gap test on 64-bit words: 512 values below 2^63 count as the upper half (C45_lower_half); 64-bit words
  near a bin end may land in the next bin (C75_next_bin, C100_uniform64).
* Coupon Stirling numbers overflow uint64 for d = 8..16 (C47_overflow_8).
* BIC is a two-category chi-square with df w²-1; affine mixers always get the maximum n·w² (C88_affine).
* `write_ppm` announces 512 x 512 pixels but writes sizeof(T) times as many (C70_size, C121_displayed): a viewer shows the first
  quarter of a 32-bit picture only; with 8-bit words it never ends (C121_bytes_endless). `-ppm` does not create its directory.
* A perfectly even sample fails the uniformity test (p-value 1, C119): `-test` reports every bijective 8- or 16-bit
  mixer as failed, the shipped ones included (C119_report, C118_report_8), and full-period 32-bit generators fail at 2^32.
* Mean test's z-score has variance (2^w+1)/(2^w-1), i.e. 257/255 for bytes (C101).
* `binomial_cdf` returns 0 for p ≈ 1 even if k ≥ n (C61_binomial_cdf_ends); binomial_coefficient(64, k) in
  double is inexact and asymmetric (C61_binomial_float_64).
* Spearman's coefficient is computed with argsort in place of ranks (C63_not_spearman).
* Reading a missing file throws without limit and gives zeros with one (C69_missing). PPM bodies are
  sizeof(T) times too long; for uint8 a 512-wide image never ends (C70_size, C70_never_ends).
* `generate_seeds(n > 2^w)` never returns (C72_too_many); PRNG setups keep only the largest seeds (C74);
  `create_evenly_seeded_stream` with more samples than data gives identical streams (C73_degenerate); the
  "(a,-a)" combiner family sums to 2 (C77_third_family).
* fishers_combined_probabilities of nothing is 0 (C92_none); Anderson–Darling p never below 0.0006/n
  (C93_statistic); ranges ≤ 1e-6 collapse to 1/2 in rescale_to_01 (C94_rescale).
* The meta analysis rejects six or more perfectly evenly spread p-values, and can never fail with at most five
  (C113_even, C113_few), so with a single source per test it is without effect.
* `beta_regularized(2.6, 0.2, 0.75)` recurses forever in doubles (C114_double_endless); `f_test` gives 10/9 for equal
  variances of 3 and 5 values, another value for 5 and 3, and infinity for 100001 values each (C114_f_ties, C114_f_infinite).
* The search's score uses the power at which the evaluation ended whether it passed there or not, so failing at
  the last power and passing it count the same; a mixer failing at 2^10 can beat one failing at 2^11
  (C105_not_by_power).
* `main` exits with 0 after an error (C99); exhaust prints 21 results where the constant says 20 (C99_printed);
  the "NA" cell of the per-test table is unreachable (C98); `1+25-power` underflows for power > 26.
* `random(uint64_t seed)` ignores its seed, so find_seed is not reproducible; search_command's local `seed`
  is unused; combiners8/16/64 are empty lists; trng data is cached by the first path.
* `contains("","")` and `contains_ignore_case("","")` disagree; '|' is not escaped by escape_for_md (C65).
* `default_max_threads` underflows for hardware_concurrency < 4 (harmless: capped by the job count).
* The code and constants printed for a search over bytes contain raw characters instead of numbers (C130_code_bytes).
* A histogram bar can have 81 stars although the limit is 80: 80/147*147 exceeds 80 in binary64 (example beside C128_bars).
* Small p-values are computed as 1-(1-Q), so in doubles anything below about 1e-16 becomes 0; the 1100000
  df cut-off is exactly what keeps the 10000-iteration limit of the gamma loops unreachable (C90).

## Testing the theorems against wrong programs

`seeded/LOG.jsonl` has one line per mutation of a model definition (made in a scratch copy), with the
theorems that failed. Where a mutation survived, the theorem was tightened and the line says so.
