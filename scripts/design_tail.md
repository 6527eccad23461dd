
## Trusted base

* Lean 4.33.0's kernel and the Mathlib definitions that appear in theorem statements.
* Axioms: at most `propext`, `Classical.choice`, `Quot.sound` (per theorem: `AXIOMS.md`). No axioms of
  our own, none from compiled code.
* The transcription C++ → Lean was done by reading; the code was never executed here. The C++ semantics
  assumed: two's complement, 32-bit `int`, 64-bit `size_t`, LP64.
* Exact arithmetic in place of IEEE double wherever a definition says so (see Conventions); C120
  bounds the difference for the values of the chi-square, uniformity, mean, runs and Kolmogorov-Smirnov statistics.
* `std::mutex`/`std::thread` behave as in the standard (Model/Jobs).

## What is modelled

| file in /repo | modelled in | not modelled |
|---|---|---|
| core/src/util/bitwise.h | Model/Bits, Windows | – |
| core/src/util/bitvector.h | Model/BitVector | – |
| core/src/util/algo.h | Model/Streams, RealStats, Text, Combine | – |
| core/src/util/math.h, math.cpp | Model/RealStats, CountStats, Combine, Gamma, TestSuite, SpecialFunctions | – |
| core/src/util/jobs.h | Model/Jobs | thread creation failure |
| core/src/util/fileutil.h/.cpp, table.h, ppm.h, trng_data.h | Model/Files, Cells, Commands, DataCache, DataStreams, DataBuild | I/O errors of the OS |
| core/src/util/statistic_analysis.h, format_result.h | Model/Analysis, Results, Console | negative zero and non-finite numbers as text |
| core/src/util/assertion.*, config.* | conventions above; paths in Commands, state in DataCache | – |
| core/src/util/random.h, timer.h | – | whole (std::random_device, clocks) |
| core/src/stream.h, streams.h, prng.h, mixer.h, combiner.h, rrc.h, rrc_streams.h | Model/Streams | – |
| core/src/types.h, test_definitions.h | Model/Results, Budget, TestSuite, Suite | – |
| core/src/evaluate.h | Model/Evaluate, Jobs | – |
| core/src/statistics/basic.h, avalanche.h, serial_avalanche.h, binary_rank.h, linear_complexity.h, coupon.h, gap.h, divisibility.h, run.h, permutation.h, uniform.h | Model/CountStats, BinaryRank, LinearComplexity, TestSuite | – |
| core/src/statistics/chi2.h, g_test.h, kolmogorov.h, correlation.h, andersondarling.h, fishersmethod.h | Model/RealStats, Combine, Rounded (chi2, kolmogorov with rounding) | – |
| core/src/statistics/tests.h | Model/RealStats, SpecialFunctions, Rounded (z_test with rounding) | – |
| core/src/statistics/distributions.h/.cpp | Model/RealStats, Gamma, Combine, SpecialFunctions | accuracy of Marsaglia's approximation inside anderson_darling_cdf away from the four critical values of C93 |
| impl/src/mixers*.h, combiners*.h, prngs*.h (and external pcg, sfc, aes, rdrand; std::mt19937, std::minstd_rand) | Model/Mixers, Prngs, Twister, HardwarePrngs, Catalogue | the intrinsics are modelled after their specification |
| tool/src/search/mixer_constructions.h, search_configs.h | Model/Construct, Score, SearchText | – |
| tool/src/search/search_command.h | Model/Sffs, Score, SearchText | – |
| tool/src/util/sffs.h, sffs_types.h, sffsutils.h | Model/Sffs, Score, SearchText | sffs_fitness_test_as_prng (never instantiated; it would not compile, because seed_data does not convert to T) |
| tool/src/util/test_setups.h, stream_sources.h | Model/TestSetups | – |
| tool/src/command/*.h, main.cpp | Model/Commands, ToolRun, ToolText, SpeedCommand, DataBuild | – |
| unittest/, results/, external/ (other) | – | whole |

## Findings

Behaviour of the code that the proofs brought to light. Each is either a theorem (named) or follows
from the cited code directly.

Undefined behaviour and faults
* `bit_ceil` above 2^(w-1) shifts by the width (C05). Powers ≥ 64 or negative in `evaluate_multi_pass` (C36).
* 16-bit mixer constructions multiply in `int` and overflow (C17_u16_overflow).
* Empty inputs: uniform test with n = 0 (C79_empty), bins with n = 0, `berlekamp_massey` of no bits,
  median of nothing (C94_median_empty), Kolmogorov of no data (NaN p-value), SFFS with negative minimum.
* Single-column table header (C68_one_column). Gap cap 0 and coupon length 0 index out of bounds, divisor 0
  divides by zero, permutation window ≥ 64.
* Permutation size for at most 46 bits is NaN converted to uint64 (C85_small; the limiter excludes it).
* An existing but empty trng/drng file makes the test command divide by zero.
* Anderson–Darling `n*n` overflows int for n > 46340 when A² is small (C93_overflow).

Wrong or surprising results
* mixer "split_mix" and "split_mix_v13" of mixers64 are the same function.
* `create_bit_flipped_xy` flips bits of the mixer's output instead of its input (C95_bit_flipped).
* Iterating a ranged stream draws n+1 values for n (C32).
* The boost combiner is not injective in its first argument (C15).
* `run_jobs` with no threads runs nothing, silently (C33/C34).
* `limit_n_slow` returns 2^(6k)-1 for 2^(7k) (C40_slow_powers); `split_test` uses more samples than
  requested for max < n < 2 max (C40); the isolated-bit rank test reads about w·n values.
* Serial avalanche never evaluates row w (C81); its row statistic averages df + 1 - P(row) (C102).
* The self-check of the mean test in `-inspect-test` prints PASS whatever the sources: with 2^25 values the test
  has no result (C126_mean).
* Runs overcounted by one when data starts at the cutoff (C49_runs); runs_stats divides by n instead of
  n-1, the z-score has variance n/(n-1) (C104); no result iff a = 0, b = 0 or a = b = 1 (C80).
* Gap test on 64-bit words: 512 values below 2^63 count as the upper half (C45_lower_half); 64-bit words
  near a bin end may land in the next bin (C75_next_bin, C100_uniform64).
* Coupon Stirling numbers overflow uint64 for d = 8..16 (C47_overflow_8).
* BIC is a two-category chi-square with df w²-1; affine mixers always get the maximum n·w² (C88_affine).
* `write_ppm` announces 512 x 512 pixels but writes sizeof(T) times as many (C70_size, C121_displayed): a viewer shows the first
  quarter of a 32-bit picture only; with 8-bit words it never ends (C121_bytes_endless). `-ppm` does not create its directory.
* A perfectly even sample fails the uniformity test (p-value 1, C119): `-test` reports every bijective 8- or 16-bit
  mixer as failed, the shipped ones included (C119_report, C118_report_8), and full-period 32-bit generators fail at 2^32.
* Mean test's z-score has variance (2^w+1)/(2^w-1), i.e. 257/255 for bytes (C101).
* `binomial_cdf` returns 0 for p ≈ 1 even if k ≥ n (C61_binomial_cdf_ends); binomial_coefficient(64, k) in
  double is inexact and asymmetric (C61_binomial_float_64).
* Spearman's coefficient is computed with argsort in place of ranks (C63_not_spearman).
* Reading a missing file throws without limit and gives zeros with one (C69_missing). PPM bodies are
  sizeof(T) times too long; for uint8 a 512-wide image never ends (C70_size, C70_never_ends).
* `generate_seeds(n > 2^w)` never returns (C72_too_many); PRNG setups keep only the largest seeds (C74);
  `create_evenly_seeded_stream` with more samples than data gives identical streams (C73_degenerate); the
  "(a,-a)" combiner family sums to 2 (C77_third_family).
* fishers_combined_probabilities of nothing is 0 (C92_none); Anderson–Darling p never below 0.0006/n
  (C93_statistic); ranges ≤ 1e-6 collapse to 1/2 in rescale_to_01 (C94_rescale).
* The meta analysis rejects six or more perfectly evenly spread p-values, and can never fail with at most five
  (C113_even, C113_few), so with a single source per test it is without effect.
* `beta_regularized(2.6, 0.2, 0.75)` recurses forever in doubles (C114_double_endless); `f_test` gives 10/9 for equal
  variances of 3 and 5 values, another value for 5 and 3, and infinity for 100001 values each (C114_f_ties, C114_f_infinite).
* The search's score uses the power at which the evaluation ended whether it passed there or not, so failing at
  the last power and passing it count the same; a mixer failing at 2^10 can beat one failing at 2^11
  (C105_not_by_power).
* `main` exits with 0 after an error (C99); exhaust prints 21 results where the constant says 20 (C99_printed);
  the "NA" cell of the per-test table is unreachable (C98); `1+25-power` underflows for power > 26.
* `random(uint64_t seed)` ignores its seed, so find_seed is not reproducible; search_command's local `seed`
  is unused; combiners8/16/64 are empty lists; trng data is cached by the first path.
* `contains("","")` and `contains_ignore_case("","")` disagree; '|' is not escaped by escape_for_md (C65).
* `default_max_threads` underflows for hardware_concurrency < 4 (harmless: capped by the job count).
* The code and constants printed for a search over bytes contain raw characters instead of numbers (C130_code_bytes).
* A histogram bar can have 81 stars although the limit is 80: 80/147*147 exceeds 80 in binary64 (example beside C128_bars).
* Small p-values are computed as 1-(1-Q), so in doubles anything below about 1e-16 becomes 0; the 1100000
  df cut-off is exactly what keeps the 10000-iteration limit of the gamma loops unreachable (C90).

## Testing the theorems against wrong programs

`seeded/LOG.jsonl` has one line per mutation of a model definition (made in a scratch copy), with the
theorems that failed. Where a mutation survived, the theorem was tightened and the line says so.
