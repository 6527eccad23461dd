{"id": "C01", "title": "Rotations move every bit to the documented place and undo each other", "statement": "For every word v of w bits and every 0<=r<w: bit i of ror(v,r) is bit (i+r) mod w of v, bit (i+r) mod w of rol(v,r) is bit i of v, rol and ror by the same amount undo each other, both keep the number of set bits, and rotating by a then by b equals rotating by (a+b) mod w. Any int amount is accepted and taken modulo w (the range assertion only prints a message).", "quantifier": "every width, every word, every rotation amount", "why_tests_cant": "A test samples a handful of words; the claim is about all 2^w words (w up to 64) and every parameter, which cannot be enumerated.", "anchors": ["core/src/util/bitwise.h: rol, ror"]}
{"id": "C02", "title": "flip_bit changes exactly the addressed bit", "statement": "For every word v and bit index 0<=b<w, flip_bit(v,b) differs from v at bit b and nowhere else, flipping twice gives v back, bit_count(v ^ flip_bit(v,b)) is 1, is_bit_set reports exactly the addressed bit and bit_count counts the indices for which is_bit_set is true. Indices between w and 63 leave the word unchanged (flip_bit) and indices outside [0,64) are undefined shifts.", "quantifier": "every width, every word, every bit index", "why_tests_cant": "A test samples a handful of words; the claim is about all 2^w words (w up to 64) and every parameter, which cannot be enumerated.", "anchors": ["core/src/util/bitwise.h: flip_bit, is_bit_set, bit_count"]}
{"id": "C03", "title": "reverse_bits is the bit reversal at all four widths", "statement": "For 8, 16, 32 and 64 bit words, bit i of reverse_bits(x) is bit w-1-i of x; hence reverse_bits is its own inverse and a bijection, and it exchanges left and right rotations.", "quantifier": "every 8/16/32/64-bit word", "why_tests_cant": "A test samples a handful of words; the claim is about all 2^w words (w up to 64) and every parameter, which cannot be enumerated.", "anchors": ["core/src/util/bitwise.h: reverse_bits"]}
{"id": "C04", "title": "byte_swap/byteswap reverse the byte order", "statement": "byteswap(x) has byte i equal to byte sizeof(T)-1-i of x for every word type; byte_swap(x) agrees with byteswap on 64-bit words; both are involutions.", "quantifier": "every word of every byte-multiple width", "why_tests_cant": "A test samples a handful of words; the claim is about all 2^w words (w up to 64) and every parameter, which cannot be enumerated.", "anchors": ["core/src/util/bitwise.h: byte_swap, byteswap, bit_cast"]}
{"id": "C05", "title": "bit_floor / bit_ceil / bit_width are the documented powers of two", "statement": "bit_width(x) is the least k with x<2^k. bit_floor(x) is the largest power of two not above x (0 for 0). bit_ceil(x) is the smallest power of two not below x for every 0<x<=2^(w-1); for x>2^(w-1) no such word exists and the code performs a shift by the full width (undefined for 32/64 bit, 0 for 8/16 bit).", "quantifier": "every width, every word", "why_tests_cant": "A test samples a handful of words; the claim is about all 2^w words (w up to 64) and every parameter, which cannot be enumerated.", "anchors": ["core/src/util/bitwise.h: bit_width, bit_floor, bit_ceil"]}
{"id": "C06", "title": "for_each_bit visits every bit once, LSB first", "statement": "Calling for_each_bit on a range of n words calls the callback exactly n*w times; call number q*w+b receives bit b of word q.", "quantifier": "every range of words, every width, every callback state", "why_tests_cant": "The number and order of the calls must be right for every length and content of the range and every state the callback carries along; a test sees three literals.", "anchors": ["core/src/util/bitwise.h: for_each_bit"]}
{"id": "C07", "title": "for_each_bit_block delivers consecutive non-overlapping blocks", "statement": "For block_size k>=1 the callback is called floor(n*w/k) times, the j-th call receives exactly bits j*k .. j*k+k-1 of the bit sequence, trailing bits are dropped, and no call sees data from another block. block_size 0 on a non-empty range writes out of bounds.", "quantifier": "every range, every block size", "why_tests_cant": "Depends on the arithmetic relation of block size and word size for all lengths.", "anchors": ["core/src/util/bitwise.h: for_each_bit_block"]}
{"id": "C08", "title": "sliding_bit_window delivers consecutive k-bit little-endian values", "statement": "For 1<=k<=63 the callback is called floor(n*w/k) times and the j-th value is sum_b bit(j*k+b)*2^b, always below 2^k. A window of 64 also works; a window of 0 or of more than 64 is undefined as soon as more than 64 bits are read and does nothing before that (the assertion only prints).", "quantifier": "every range of words, every window size", "why_tests_cant": "All lengths, all contents and all 63 window sizes.", "anchors": ["core/src/util/bitwise.h: sliding_bit_window"]}
{"id": "C09", "title": "bit_vector behaves like a growable list of bits", "statement": "Any sequence of construct/add/set_bit/get_bit/get/count/size/to_string calls that stays in bounds gives exactly the results of the same operations on a plain list of booleans; bits beyond the size never become visible; get(from,n) is the little-endian number read; add(v,n) followed by get at the old end returns v mod 2^n for n<=64. Out of bounds access and add with more than 64 bits are the only failures.", "quantifier": "every finite history of operations", "why_tests_cant": "A history property: every sequence of operations of every length, with every content. A test runs a few short histories, and the interesting faults (bits surviving beyond the size, a partial last byte) need particular histories.", "anchors": ["core/src/util/bitvector.h: bit_vector, to_string"]}
{"id": "C10", "title": "RRC transforms are bijections and compose from reverse/complement/rotate", "statement": "For each of the four permutation kinds and every rotation 0<=r<w, permute is a bijection on words, given bitwise by the documented formula, and get_rrc_permutations returns 4w entries covering every (kind, rotation) pair exactly once.", "quantifier": "every word, kind, rotation, width", "why_tests_cant": "A test samples a handful of words; the claim is about all 2^w words (w up to 64) and every parameter, which cannot be enumerated.", "anchors": ["core/src/rrc.h: rrc_permutation, permute, get_rrc_permutations"]}
{"id": "C11", "title": "RRC source lists cover every transform of every stream", "statement": "create_rrc_sources on m sources yields 4w*m streams; each of these is the pointwise transform of its source (its k-th value is permute of the source's k-th value), and every (source, transform) pair appears exactly once.", "quantifier": "every list of sources, every k", "why_tests_cant": "The streams are infinite and the source list arbitrary; a test can compare finitely many values of a few sources.", "anchors": ["core/src/rrc_streams.h: create_rrc_sources", "core/src/rrc.h"]}
{"id": "C12", "title": "8- and 16-bit mixers are bijections", "statement": "xm3x at 8 bit and xm3x at 16 bit map the word space one-to-one onto itself (no collisions, every word is hit), with no signed overflow during evaluation.", "quantifier": "every word", "why_tests_cant": "A test samples a handful of words; the claim is about all 2^w words (w up to 64) and every parameter, which cannot be enumerated.", "anchors": ["impl/src/mixers8.h: xm3x", "impl/src/mixers16.h: xm3x"]}
{"id": "C13", "title": "32-bit mixers are bijections", "statement": "mx1, mx2, mx3, prospector, prospector_boost, h2_sql, murmur, wang_1 and jenkins are bijections of the 32-bit words.", "quantifier": "every 32-bit word and every pair of words", "why_tests_cant": "Injectivity is a statement about 2^63 pairs of words per mixer; tests compare a few outputs with reference values, which also pass for a mixer that loses a bit.", "anchors": ["impl/src/mixers32.h"]}
{"id": "C14", "title": "64-bit mixers are bijections", "statement": "mx1, mx2, mx3, nasam, moremur, lea64, degski64, splitmix_v13, splitmix, murmur3, xxh3 and fast_hash are bijections of the 64-bit words.", "quantifier": "every 64-bit word and every pair", "why_tests_cant": "Injectivity is a statement about 2^127 pairs of words per mixer; no test can search them, and a broken shift constant still passes reference values that do not exercise it.", "anchors": ["impl/src/mixers64.h"]}
{"id": "C15", "title": "Combiners lose no information from either argument", "statement": "For combine mx1, mx2, mx3 of 32-bit words, fixing either argument leaves a bijection in the other. boost's combine is a bijection in its second argument for each fixed first argument, but not in its first: there are two first arguments that collide for the same second one.", "quantifier": "every pair of words", "why_tests_cant": "A test samples a handful of words; the claim is about all 2^w words (w up to 64) and every parameter, which cannot be enumerated.", "anchors": ["impl/src/combiners32.h"]}
{"id": "C16", "title": "Searched mixer constructions decode safely", "statement": "For every bit string of the configured length the xmx/xm2x/xm3x constructions read only in-bounds bits, obtain shifts strictly below the word width (never an undefined shift) and a w-bit multiplier, and the decoding loses no bits (distinct bit strings give distinct constants).", "quantifier": "every bit string, widths 8..64", "why_tests_cant": "There are up to 2^88 bit strings per construction; an out-of-range shift may be reached by one of them only.", "anchors": ["tool/src/search/mixer_constructions.h", "tool/src/search/search_configs.h"]}
{"id": "C17", "title": "Searched mixer constructions are bijections exactly for odd multipliers and nonzero shifts", "statement": "Whenever the decoded shifts are below the width, a construction evaluates without a fault on every word (at 16 bits provided the multiplier is at most 32768) and is a bijection iff its multiplier is odd and each of its shifts is nonzero; at 16 bits every larger multiplier overflows int for some input as soon as the first shift is nonzero.", "quantifier": "every constants tuple, widths 8..64", "why_tests_cant": "Quantifies over all decoded constants (up to 2^88) and, for each, over all words.", "anchors": ["tool/src/search/mixer_constructions.h: xmx, xm2x, xm3x"]}
{"id": "C18", "title": "Weyl-sequence generators have full period and exact closed form", "statement": "For every seed, the k-th output of each counter-based generator (mx1, mx2, mx3, splitmix at 64 bit; mx1, mx2, mx3 at 32 bit) is mix(seed + (k+1)*increment) (or its documented variant), any 2^w consecutive outputs contain each word exactly once, and the output sequence has least period exactly 2^w.", "quantifier": "every seed, every position", "why_tests_cant": "A period of 2^64 steps, for each of 2^64 seeds, cannot be run.", "anchors": ["impl/src/prngs64.h", "impl/src/prngs32.h"]}
{"id": "C19", "title": "Truncated generators are exactly equidistributed", "statement": "The 8/16/32-bit generators that return the low or the top bits of a 64-bit Weyl or pcg generator produce every output value exactly 2^(64-w) times in each window of 2^64 consecutive calls, for every seed.", "quantifier": "every seed, every window", "why_tests_cant": "The count is over 2^64 consecutive calls for every seed.", "anchors": ["impl/src/prngs8.h", "impl/src/prngs16.h", "impl/src/prngs32.h"]}
{"id": "C20", "title": "xorshift generators have period 2^n-1 on nonzero states and never leave them", "statement": "xorshift 32 (13,17,5) and 64 (13,7,17): from every nonzero state the state sequence returns after exactly 2^n-1 steps and not before, visiting every nonzero state; the zero state is stuck.", "quantifier": "every state, every step count", "why_tests_cant": "Periods of 2^32-1 and 2^64-1 steps from every nonzero state; a test sees a short prefix of one orbit.", "anchors": ["impl/src/prngs64.h: xorshift", "impl/src/prngs32.h: xorshift"]}
{"id": "C21", "title": "xorshift128+, xoroshiro128+, xoshiro128 have period 2^128-1", "statement": "The state transition of each of these generators is invertible, fixes zero, and from every nonzero state has orbit length exactly 2^128-1.", "quantifier": "every 128-bit state", "why_tests_cant": "2^128-1 steps from every nonzero state; a transition with a slightly wrong shift has the same short-run behaviour and a much shorter period.", "anchors": ["impl/src/prngs64.h: xorshift128plus, xoroshiro128plus", "impl/src/prngs32.h: xoshiro128plus, xoshiro128plusplus"]}
{"id": "C22", "title": "SFC generators are reversible and have long minimum cycles", "statement": "The sfc16/32/64 state transition is a bijection; because of the embedded counter a state recurs only after a multiple of 2^w steps, and every state does recur. Different seeds give generators that at no common position have the same state.", "quantifier": "every 4-word state", "why_tests_cant": "The state space has 2^64 (sfc16) to 2^256 (sfc64) states, and recurrence times of at least 2^64 steps cannot be observed.", "anchors": ["impl/src/external/sfc/sfc64.h", "impl/src/prngs32.h", "impl/src/prngs64.h"]}
{"id": "C23", "title": "PCG generators have full period and a reversible output", "statement": "The PCG LCG step used by pcg64_once_insecure and pcg32 has period exactly 2^64 from every state and for every stream; the rxs_m_xs output function is a bijection, so pcg64 outputs every 64-bit value exactly once per period; each 32-bit value appears exactly 2^32 times per period of pcg32.", "quantifier": "every state, every stream", "why_tests_cant": "A period of 2^64 steps on each of 2^63 streams; a wrong multiplier (not 1 mod 4) looks the same in any short run.", "anchors": ["impl/src/external/pcg/pcg_random.hpp", "impl/src/prngs64.h", "impl/src/prngs32.h"]}
{"id": "C24", "title": "minstd outputs stay in range and have full period", "statement": "From every valid state (1..2^31-2) minstd's next state is again valid, and its period is exactly 2^31-2.", "quantifier": "every seed, every step", "why_tests_cant": "The claim is about every seed and the complete orbit of 2^31-2 steps; it rests on the multiplier being a primitive root, which no sample shows.", "anchors": ["impl/src/prngs32.h: minstd"]}
{"id": "C25", "title": "A generator made from a mixer iterates it", "statement": "create_prng_from_mixer(m) yields m(seed), m(m(seed)), ...; when m is a bijection the sequence is purely periodic with a period common to all seeds, the seed itself is produced, and if two seeds ever share an output each occurs in the other's sequence.", "quantifier": "every mixer, seed, position", "why_tests_cant": "Ranges over all functions on words, and all seeds.", "anchors": ["core/src/prng.h: create_prng_from_mixer"]}
{"id": "C26", "title": "Counter streams produce start+(k+1)*increment mod 2^64", "statement": "The k-th value of a counter stream is the truncation to T of (start + (k+1)*increment) mod 2^64, for every start and increment, with wrap-around; with an odd increment each window of 2^w values contains each w-bit word exactly once.", "quantifier": "every start, increment, k, width", "why_tests_cant": "Ranges over all starts, increments and positions, including the wrap-around after up to 2^64 steps.", "anchors": ["core/src/streams.h: create_counter_stream"]}
{"id": "C27", "title": "Data streams replay the data cyclically", "statement": "A stream from a non-empty data vector returns data[(start+k) mod size] (as long as the 64-bit index does not wrap), so size consecutive values are a rotation of the data; an empty data vector faults with a division by zero at the first call.", "quantifier": "every data vector, start, k", "why_tests_cant": "All data vectors and unbounded positions, including across the wrap of the 64-bit index.", "anchors": ["core/src/streams.h: create_stream_from_data"]}
{"id": "C28", "title": "Bit isolation packs bit b of w consecutive values", "statement": "Value k of create_bit_isolation_stream(source,b) has bit i equal to bit b of source value k*w+i; bits are neither lost nor duplicated, and each output consumes exactly w source values. isolate_bit_by_ref packs the next w values of the stream it is given and leaves it advanced by exactly w.", "quantifier": "every source, bit, position", "why_tests_cant": "An unbounded stream of an arbitrary source; a test inspects a finite prefix of one.", "anchors": ["core/src/streams.h: create_bit_isolation_stream", "core/src/util/algo.h: isolate_bit_by_ref"]}
{"id": "C29", "title": "Derived streams transform pointwise and preserve information", "statement": "Reversed, byte-swapped and rotated streams are the pointwise image of their source under a bijection, so the source stream can be recovered; rotation by 0 is the source itself.", "quantifier": "every source stream, every position", "why_tests_cant": "Unbounded streams over an arbitrary source.", "anchors": ["core/src/streams.h: create_bit_reversed_stream, create_byteswapped_stream, ror_stream"]}
{"id": "C30", "title": "Streams over shared test data never hand out an index twice", "statement": "For every interleaving of any number of consumers of the thread-safe stream, the m-th fetch overall gets index start+m, so no index is handed out twice within 2^64 calls and each consumer sees increasing positions; over one shared data vector the values in the order of the fetches are the data replayed cyclically.", "quantifier": "every schedule, every number of consumers", "why_tests_cant": "All interleavings of any number of threads; a test observes one schedule per run and a race need not show up.", "anchors": ["core/src/streams.h: create_thread_safe_stream_from_data"]}
{"id": "C31", "title": "Mixer and combiner streams are pointwise compositions", "statement": "stream_from_mixer yields m(s_k); combined streams yield c(a_k,b_k) advancing both sources once per value; the incremental combination yields the documented pairs.", "quantifier": "every mixer/combiner/stream, every position", "why_tests_cant": "Ranges over all mixers/combiners (arbitrary functions) and unbounded positions.", "anchors": ["core/src/streams.h: create_stream_from_mixer, create_combined_stream, create_combined_incremental_stream"]}
{"id": "C32", "title": "A ranged stream iterates exactly the first n values, repeatably", "statement": "Iterating ranged_stream(source,n) yields exactly the first n values of the source, as often as it is repeated; n=0 yields nothing; the iterator calls its copy of the source n+1 times. get_raw_by_ref returns the first n values and leaves the stream advanced by exactly n.", "quantifier": "every source, every n", "why_tests_cant": "Arbitrary sources and every n up to 2^64; repeatability is a claim about the iterator's hidden state.", "anchors": ["core/src/stream.h: ranged_stream, stream_iterator"]}
{"id": "C33", "title": "run_jobs runs every job exactly once and collects each result exactly once", "statement": "In every execution, for every number of worker threads and every interleaving, when run_jobs finishes the results passed to the collector are a permutation of the results of the submitted jobs: none is lost, none is duplicated; the collector is never entered by two threads at once.", "quantifier": "every schedule, job list, thread count >= 1", "why_tests_cant": "All schedules of any number of workers: losing or doubling a job needs a particular interleaving which a test cannot force.", "anchors": ["core/src/util/jobs.h: run_jobs"]}
{"id": "C34", "title": "run_jobs never deadlocks and always finishes", "statement": "From every reachable state with unfinished work some thread can step; every execution takes a number of steps bounded by a function of job and thread count; with zero threads nothing runs.", "quantifier": "every schedule, job list, thread count", "why_tests_cant": "Absence of deadlock is universal over schedules; a test that finishes shows one schedule that does.", "anchors": ["core/src/util/jobs.h: run_jobs", "core/src/types.h: default_max_threads"]}
{"id": "C35", "title": "Evaluation results do not depend on the thread schedule", "statement": "The multiset of statistics recorded for each test key, and hence the analysis verdict, is the same for every schedule and thread count >= 1, and consists of exactly one result per (source, test) job, none lost.", "quantifier": "every schedule, setup, thread count", "why_tests_cant": "All interleavings, thread counts, setups and test functions.", "anchors": ["core/src/evaluate.h: create_test_jobs, create_collect_job, evaluate", "core/src/types.h: test_battery_result"]}
{"id": "C36", "title": "evaluate_multi_pass visits consecutive powers of two and stops on request", "statement": "The callback is invoked with n=2^start, 2^(start+1), ..., consecutively, with is_last exactly when the power equals stop, stops right after the first callback returning false, never evaluates a power beyond stop, and returns the last evaluated battery; with start>stop no evaluation happens.", "quantifier": "every start, stop, callback", "why_tests_cant": "Ranges over all callbacks (with state), all batteries and all bounds.", "anchors": ["core/src/evaluate.h: evaluate_multi_pass, range"]}
{"id": "C37", "title": "The test command reports completion exactly once per run", "statement": "Driving evaluate_multi_pass with the tool's result callback calls the completion handler exactly once, with the final result: at the first failing pass if any, otherwise at the last pass.", "quantifier": "every sequence of pass outcomes", "why_tests_cant": "Quantifies over all histories of pass outcomes.", "anchors": ["tool/src/command/test_command.h: create_result_callback"]}
{"id": "C38", "title": "Battery results behave as a map from test key to result list", "statement": "test keys are strictly totally ordered (so distinct keys never collapse); adding results in any order groups them by key, preserving per-key insertion order and losing nothing.", "quantifier": "every history of adds", "why_tests_cant": "All histories of additions in every order, with arbitrary keys.", "anchors": ["core/src/types.h: test_key, test_battery_result"]}
{"id": "C39", "title": "The test catalogue is complete and unambiguous", "statement": "Every test type has exactly one definition, look-up by type returns the definition with this type, display names are distinct so that a printed test key identifies its key uniquely. The tests are, in the order in which batteries and tables list them, mean, uniform, runs, serial-avalanche, gap, coupon, divisibility, permutation, binary-rank, linear-complexity, sac, bic; a printed key is that name, followed for a sub-test by a colon and the name of the sub-test, and the text before the first colon is the name of the test.", "quantifier": "every test type", "why_tests_cant": "Injectivity of the printed key ranges over all sub-test names; the completeness part must hold for the catalogue as a whole.", "anchors": ["core/src/test_definitions.h", "core/src/format_result.h: to_string"]}
{"id": "C40", "title": "Sample budgets: splitting and limiting", "statement": "split_test runs its test once per listed size, in order, with sub-tests of at most the cap; the total is the request when it fits in one sub-test, more than the request exactly when the request is strictly between one and two caps, and otherwise falls short by less than one cap; a zero cap divides by zero. The slow and slower limits are absent or between 1024 and the request and monotone; for requests 2^(7k) the slow limit gives 2^(6k)-1 and the slower one 2^(5k). Each test of the catalogue gets exactly the documented budget. power_of_two(n) is the least k with n<=2^k.", "quantifier": "every n and cap", "why_tests_cant": "All sample counts up to 2^64 and all caps; rounding of the exponents shows at isolated values only (e.g. 2^35).", "anchors": ["core/src/types.h: split_test, limit_n, power_of_two"]}
{"id": "C41", "title": "binary_square_matrix stores bits faithfully", "statement": "Row-major get/set on an n x n matrix behave like a function (row,col)->bit: after any history of writes a cell holds the last bit written to it, or 0; two matrices compare equal iff they have the same size and cells. A column beyond the size reads the next row, a row beyond it is out of bounds.", "quantifier": "every size, every history of writes", "why_tests_cant": "All sizes, and every history of writes.", "anchors": ["core/src/types.h: binary_square_matrix"]}
{"id": "C42", "title": "Strict avalanche histogram is exact", "statement": "sac over n values is the histogram of Hamming distances of mixer outputs for all single-bit input flips: entries sum to n*w, every index is at most w (in bounds), and for an injective mixer entry 0 is zero.", "quantifier": "every mixer, every data", "why_tests_cant": "Ranges over all functions on words and all sources; a test fixes one mixer.", "anchors": ["core/src/statistics/avalanche.h: sac"]}
{"id": "C43", "title": "Bit independence counters are exact", "statement": "Entry (i,j) of the bit-flip table counts exactly the values for which flipping input bit i flips output bit j; each is at most n, and the table's total equals the Hamming mass of the sac histogram.", "quantifier": "every mixer, every data", "why_tests_cant": "Ranges over all functions on words and all sources; a test fixes one mixer.", "anchors": ["core/src/statistics/avalanche.h: bic"]}
{"id": "C44", "title": "Serial avalanche counts consecutive differences", "statement": "serial_avalanche_count(n) consumes exactly 2n values and counts, for every a and b, the pairs of successive values with a and b one bits; the counts total n; no index is out of bounds for any data.", "quantifier": "every data", "why_tests_cant": "All sources and sample counts, including the counting modulo 2^64.", "anchors": ["core/src/statistics/serial_avalanche.h"]}
{"id": "C45", "title": "Gap test counts every completed gap once", "statement": "For every value sequence, interval and cap>=1 gap counting cuts the data after each hit and counts every segment once by its number of misses, longer ones in the last bin; misses after the last hit are dropped. Expected probabilities are the geometric distribution, non-negative with sum one; for an empty interval their computation never ends. In the lower half interval the hits are exactly the words with top bit 0 (for 64-bit words: those below 2^63-512). Cap 0 is an out-of-bounds access.", "quantifier": "every data, interval, cap", "why_tests_cant": "All data, all intervals and caps; boundary words of the interval (and of the conversion to double) are isolated points.", "anchors": ["core/src/statistics/gap.h"]}
{"id": "C46", "title": "Coupon collector segments are exact", "statement": "The coupon histogram counts exactly the lengths of consecutive minimal segments containing all d coupons, with long ones in the last bin; indices are in bounds.", "quantifier": "every data, d, cap", "why_tests_cant": "All data and all numbers of coupons.", "anchors": ["core/src/statistics/coupon.h"]}
{"id": "C47", "title": "Coupon probabilities are the exact distribution", "statement": "The expected probability for length i equals d!/d^i*S(i-1,d-1), the exact fraction of draw sequences completing the set at length i, whenever the Stirling number fits into 64 bits (always for the d=5 in use and for d<=7); up to the truncation point and together with the tail they sum to one. Beyond (e.g. d=8) the 64-bit Stirling numbers overflow.", "quantifier": "every d and i", "why_tests_cant": "An identity between a recurrence and a count of d^i sequences for all d and i; tests compare a few table values.", "anchors": ["core/src/statistics/coupon.h: expected_probabilities", "core/src/util/math.h: stirling_second_kind"]}
{"id": "C48", "title": "Divisibility counts and probabilities", "statement": "The histogram counts the numbers of draws needed for each successive group of wanted divisible values; its total is floor(#divisible/wanted); expected probabilities are negative binomial. Divisor 0 faults.", "quantifier": "every data, divisor, wanted", "why_tests_cant": "All data, divisors and group sizes; the identity with the negative binomial law is for all parameters.", "anchors": ["core/src/statistics/divisibility.h"]}
{"id": "C49", "title": "Runs statistic counts maximal runs", "statement": "The number of runs the runs test reports equals the number of maximal constant blocks of the above/below sequence (values equal to the cutoff skipped), with the exact deviation characterised when the data begins with the cutoff value.", "quantifier": "every data and cutoff", "why_tests_cant": "All data and cutoffs; the deviation needs data beginning with the cutoff value.", "anchors": ["core/src/statistics/run.h"]}
{"id": "C50", "title": "Permutation histogram counts windows", "statement": "Histogram entry v equals the number of windows with value v, saturated at 255, for every data and window size; the total over entries equals the number of windows when nothing saturates.", "quantifier": "every data, window size", "why_tests_cant": "All data and the 63 window sizes; saturation only shows after more than 255 equal windows.", "anchors": ["core/src/statistics/permutation.h"]}
{"id": "C51", "title": "Binary rank is the rank over GF(2)", "statement": "row_reduce_and_rank returns the rank over GF(2) of the given square bit matrix, for every size and content.", "quantifier": "every square bit matrix", "why_tests_cant": "2^(n*n) matrices for every n.", "anchors": ["core/src/statistics/binary_rank.h: row_reduce_and_rank"]}
{"id": "C52", "title": "Matrices are cut from the stream without overlap", "statement": "for_each_matrix delivers floor(n*w/s^2) matrices; matrix k holds bits k*s^2.. of the stream, independent of what callbacks do to the scratch matrix.", "quantifier": "every data, size, mutating callback", "why_tests_cant": "All data, all sizes, and arbitrary callbacks that may modify the scratch matrix.", "anchors": ["core/src/statistics/binary_rank.h: for_each_matrix"]}
{"id": "C53", "title": "Rank probabilities are exact", "statement": "get_rank_probability(n,r) equals the fraction of n x n bit matrices of rank r, the probabilities sum to one.", "quantifier": "every n, r", "why_tests_cant": "Equality with a count over all 2^(n*n) matrices, for every n.", "anchors": ["core/src/statistics/binary_rank.h: get_rank_probability"]}
{"id": "C54", "title": "berlekamp_massey returns the linear complexity", "statement": "For every bit sequence the returned L is the length of the shortest LFSR generating it: some LFSR of length L generates it and none shorter does; indices stay in bounds.", "quantifier": "every bit sequence", "why_tests_cant": "2^n sequences for every n, and minimality is a statement about all shorter registers.", "anchors": ["core/src/statistics/linear_complexity.h: berlekamp_massey"]}
{"id": "C55", "title": "Linear complexity probabilities are exact", "statement": "lfsr_log2_probability(n,L) is log2 of the fraction of length-n bit strings with linear complexity L, the fractions sum to one.", "quantifier": "every n, L", "why_tests_cant": "Equality with a count over all 2^n bit strings, for every n.", "anchors": ["core/src/statistics/linear_complexity.h: lfsr_log2_probability"]}
{"id": "C56", "title": "Linear complexity statistic tallies every block once", "statement": "Each block of the stream contributes one count to the entry of its complexity; counts total the number of blocks; indices are in bounds.", "quantifier": "every data", "why_tests_cant": "All sources, bits and block sizes.", "anchors": ["core/src/statistics/linear_complexity.h"]}
{"id": "C57", "title": "Histogram bins conserve the sample", "statement": "The number of bins is a power of two, at least 2 and at least 2 n^0.4 (unless limited by the number of words), and below 2(2 n^0.4+1); bin_data_for_chi2 counts every value exactly once in the in-range bin given by its rescaled value. An empty sample and zero bins are undefined behaviour.", "quantifier": "every data in [0,1], bin count", "why_tests_cant": "All data and bin counts up to 2^63, with rounding of the intermediate doubles.", "anchors": ["core/src/statistics/chi2.h"]}
{"id": "C58", "title": "chi2_stats degrees of freedom and sign", "statement": "chi2_stats uses exactly the bins whose expectation is above the threshold, returns a result iff at least two exist, its degrees of freedom are that number minus one, its value is the sum of (o-e)^2/e over them, hence non-negative and zero exactly when all used bins match their expectation, and its p-value is the distribution function at that value.", "quantifier": "every list of counts and expectation", "why_tests_cant": "All inputs (functions giving observed and expected counts), of all lengths.", "anchors": ["core/src/statistics/chi2.h: chi2_stats"]}
{"id": "C59", "title": "G statistic is well defined and non-negative", "statement": "g_test_stats uses the bins whose expectation reaches the threshold and whose observation is not (nearly) zero, returns a result iff there are at least two, and its value 2(sum o ln(o/e) - O ln(O/E)) is non-negative, zero exactly if observed and expected counts of the used bins are proportional (equal, for equal totals).", "quantifier": "every list of counts", "why_tests_cant": "An inequality (Gibbs) for all counts and expectations of all lengths.", "anchors": ["core/src/statistics/g_test.h"]}
{"id": "C60", "title": "Kolmogorov statistic is the sup distance", "statement": "For all non-empty data in [0,1] kolmogorov_smirnov_stats' D is the supremum over x of |F_n(x)-x|, does not depend on the order of the data, and its p-value lies in [0,1], being 1 at D=0.", "quantifier": "every non-empty data in [0,1]", "why_tests_cant": "A supremum over a continuum, for all data of all lengths in all orders.", "anchors": ["core/src/statistics/kolmogorov.h"]}
{"id": "C61", "title": "Binomial helpers equal the textbook functions", "statement": "In exact arithmetic binomial_coefficient(n,k) is n choose k; flip_coin_pdf and binomial_pdf are non-negative and sum to one; binomial_cdf is the partial sum, except within 1e-10 of p=0 and p=1, where it returns the constants 1 and 0. With binary64 rounding the coefficient is still exact for all word sizes up to 32 bits, but not for 64 bits.", "quantifier": "every n,k,p", "why_tests_cant": "Identities for all parameters; the claim about rounding is about every intermediate double.", "anchors": ["core/src/statistics/distributions.h", "core/src/statistics/distributions.cpp"]}
{"id": "C62", "title": "Correlation coefficients stay in [-1,1]", "statement": "pearson_correlation_stats and kendall_correlation_stats compute the z-scores of Pearson's r (Fisher transform) and Kendall's tau-b; the coefficients lie in [-1,1] for all data, are symmetric in their arguments, and are 1 for identical non-constant data; too short or constant data give no result (or z-score 0); a shorter second vector is read out of bounds.", "quantifier": "every pair of data vectors", "why_tests_cant": "Inequalities (Cauchy-Schwarz) and symmetries for all data of all lengths.", "anchors": ["core/src/statistics/correlation.h"]}
{"id": "C63", "title": "get_ranks and Spearman correlation", "statement": "get_ranks returns a permutation of the indices that sorts the data (an argsort); it is not in general the rank vector, so Spearman's value on it is characterised, with a witness where it differs from the textbook value.", "quantifier": "every data vector", "why_tests_cant": "All data and all behaviours of an unstable sort.", "anchors": ["core/src/util/algo.h: get_ranks", "core/src/statistics/correlation.h: spearman_correlation"]}
{"id": "C64", "title": "merge_bins conserves mass and meets the threshold", "statement": "When any merged bin is produced, merged expected and observed totals equal the inputs' totals and every merged expected count is at least the threshold; otherwise the result is empty.", "quantifier": "every pair of lists and threshold", "why_tests_cant": "All lists of all lengths and every threshold.", "anchors": ["core/src/util/algo.h: merge_bins"]}
{"id": "C65", "title": "Text helpers", "statement": "join puts the separator exactly between the non-empty elements; replace_all terminates and replaces every occurrence of one left-to-right scan without rescanning inserted text; escape_for_md puts one backslash before each listed character and nothing else, so the text can be recovered; contains decides the substring relation, contains_ignore_case the same up to ASCII case (but for the empty text).", "quantifier": "every string", "why_tests_cant": "All strings, and termination of replace_all when the replacement contains the needle.", "anchors": ["core/src/util/algo.h"]}
{"id": "C66", "title": "Strength classification is monotone and has the documented thresholds", "statement": "The comparable p-value is p itself for z-scores and min(p,1-p) otherwise. A result passes iff it is above 1e-9, is suspicious iff at most 1e-5, remarkable iff at most 0.1; strength>=k exactly if it is at most 10^-k (k<=10); a smaller value never gets a weaker verdict; the text shown names class and strength.", "quantifier": "every p in (0,1]", "why_tests_cant": "A continuum of p-values; the exact thresholds are single points.", "anchors": ["core/src/util/statistic_analysis.h"]}
{"id": "C67", "title": "The overall verdict is the worst sub-result", "statement": "The analysis of a battery has, per key, one entry with the least comparable p-value and one meta entry with the Kolmogorov-Smirnov statistic of the p-values, sorted from worst to best; the verdict is PASS exactly if no entry is at or below 1e-9 (inconclusive for an empty battery); counts and lists of failed and shown tests are exact; nothing depends on the order in which results were collected, on the thread schedule or on how the sorts break ties.", "quantifier": "every battery result, every order", "why_tests_cant": "All batteries, all orders of the results, all behaviours of the unstable sorts and all thread schedules.", "anchors": ["core/src/util/statistic_analysis.h", "core/src/format_result.h"]}
{"id": "C68", "title": "Tables render aligned", "statement": "Whatever the sequence of calls, a table that has not run into undefined behaviour renders header and rows in order with every cell padded to two more than the longest cell of its column, nothing cut off or lost; the only undefined calls are ending a cell in a complete row and constructing a table with exactly one column.", "quantifier": "every history of row/col calls", "why_tests_cant": "All histories of calls with all texts.", "anchors": ["core/src/util/table.h"]}
{"id": "C69", "title": "Binary files round-trip", "statement": "After any non-empty history of writes and appends, read_binary with the same word type returns exactly the words written since the last truncating write (preceded by the words of the file before, if it held words and was only appended to); any file of fewer than 2^63 bytes is read as its full words (up to the limit), an incomplete last word being ignored; other files are untouched. A missing file is not diagnosed: reading throws without a limit and yields zeros with a small one.", "quantifier": "every vector, every history of writes", "why_tests_cant": "All contents and all histories of writes, with all word sizes and limits.", "anchors": ["core/src/util/fileutil.h", "core/src/util/fileutil.cpp"]}
{"id": "C70", "title": "PPM images", "statement": "write_ppm's header announces width, height and maximum 255, and a reader sees exactly these; the pixel function is called once per pixel row by row, and each byte of its result becomes a grey pixel, so that the data matches the header only for 8-bit words; if a dimension is not representable in the word type it never ends (which is the case for the 512 x 512 image of 8-bit words).", "quantifier": "every stream, every width/height", "why_tests_cant": "All sizes and pixel functions, including non-termination, which no test can observe.", "anchors": ["core/src/util/ppm.h", "tool/src/command/ppm_command.h"]}
{"id": "C71", "title": "SFFS search never worsens and keeps its sets consistent", "statement": "For every fitness function, every tie-break and every thread schedule: throughout the floating search each stored candidate of cardinality k has exactly k selected bits and its stored score is its fitness; the search never gets stuck, terminates within an explicit number of steps, and returns a vector with its own fitness such that no vector evaluated during the search - in particular not the seed - is better; without ties the result does not depend on the schedule.", "quantifier": "every fitness function, every tie-break", "why_tests_cant": "Ranges over all fitness functions, tie-breaks and thread schedules, for every number of bits.", "anchors": ["tool/src/util/sffs.h", "tool/src/search/search_command.h"]}
{"id": "C72", "title": "Generated seeds are distinct and of the requested number", "statement": "generate_seeds<T>(n) terminates for every n up to 2^w and returns max(n, 2w) seeds in strictly ascending order of their first word (so all distinct), containing every rotation, reversal and complement of 1; the other words of the seeds are pairwise distinct too; for n above 2^w it never returns.", "quantifier": "every word type, every requested number of seeds", "why_tests_cant": "Termination and distinctness for every n up to 2^64 cannot be run; a test sees the single n it calls with.", "anchors": ["tool/src/util/test_setups.h: generate_seeds"]}
{"id": "C73", "title": "Evenly seeded data streams start at disjoint segments", "statement": "The streams created over shared data start at multiples of interval = size / sample_count; their first interval values are pairwise disjoint segments that together form a prefix of the data; one value further a stream repeats its successor; with more samples than data all streams coincide; sample_count 0 divides by zero.", "quantifier": "every data, every size below 2^64, every sample count", "why_tests_cant": "Ranges over all data sizes and sample counts, including sizes no test can allocate.", "anchors": ["tool/src/util/test_setups.h: create_evenly_seeded_stream"]}
{"id": "C74", "title": "PRNG test setups use distinct nonzero seeds", "statement": "create_prng_test_setup yields exactly 4w streams; stream i is the generator seeded with the i-th largest generated seed, rotated by i+1 for the first w-1; the seeds are pairwise distinct and non-zero.", "quantifier": "every word type, every generator factory", "why_tests_cant": "The generator is an arbitrary function; a test fixes one.", "anchors": ["tool/src/util/test_setups.h: create_prng_test_setup"]}
{"id": "C75", "title": "Rescaling to [0,1) and integer binning agree", "statement": "Under round-to-nearest, rescaling an integer of w bits to [0,1) and multiplying by 2^b bins gives exactly the top b bits whenever w+b<=53 (for 32-bit words up to 2^21 bins); results are monotone and never out of range; for 64-bit words the top values may round up to 1 and land in the last bin.", "quantifier": "every word, every power-of-two bin count", "why_tests_cant": "All words.", "anchors": ["core/src/util/math.h: rescale_to_01", "core/src/statistics/chi2.h"]}
{"id": "C76", "title": "z-score p-values are two-tailed normal tail probabilities", "statement": "The p-value reported with a z-score statistic z is exactly the probability that a standard normal variable is at least as far from zero as z; it lies in (0,1], is symmetric in the sign of z and decreases strictly in |z|.", "quantifier": "every real z (exact arithmetic)", "why_tests_cant": "Ranges over all real scores.", "anchors": ["core/src/statistics/distributions.h: normal_two_tailed_cdf, normal_cdf"]}
{"id": "C77", "title": "Sources of mixer and combiner tests", "statement": "create_sources gives one stream per kind of bit transform and rotation, its k-th value being the transform of k+1; create_combiner_sources gives 3+12w streams with exactly the documented argument pairs (0,0), (0,b), (a,0) and three transformed families; the family called (a,-a) in fact has arguments that add up to 2.", "quantifier": "every word type, every combiner, every position in the stream", "why_tests_cant": "Infinite streams of an arbitrary combiner.", "anchors": ["tool/src/util/stream_sources.h: create_sources, create_combiner_sources"]}
{"id": "C78", "title": "The mean test reports the z-score of the mean", "statement": "For every source and sample count n the mean test reports nothing for n=0 and otherwise one unnamed z-score: (mean of the first n rescaled values - 1/2)*sqrt(12n), with its two-tailed normal probability. The score lies in [-sqrt(3n), sqrt(3n)], the ends being reached only by all-zero and all-ones data; complementing the data negates it and keeps the p-value.", "quantifier": "every source of w-bit words, every sample count", "why_tests_cant": "The claim is about the whole test as the tool runs it, for every infinite source and every sample count; a unit test can feed it one finite prefix and compare one number.", "anchors": ["core/src/test_definitions.h: mean", "core/src/statistics/basic.h", "core/src/statistics/tests.h: z_test"]}
{"id": "C79", "title": "The uniformity test is Pearson's test over equal bins", "statement": "For every source of 8/16/32/64-bit words and n>=1 the uniformity test does not fault and reports one unnamed chi-square statistic of the first n values over a power-of-two number B>=2 of equal bins with B-1 degrees of freedom; the value is between 0 and n(B-1), 0 exactly for equal bin counts, n(B-1) exactly when all values share a bin; it does not depend on the order of the values; a source of 8, 16 or 32-bit words that hits every word equally often (n up to 2^45) scores 0. n=0 is undefined behaviour.", "quantifier": "every source, every sample count", "why_tests_cant": "The claim is about the whole test as the tool runs it, for every infinite source and every sample count; a unit test can feed it one finite prefix and compare one number.", "anchors": ["core/src/test_definitions.h: uniform", "core/src/statistics/uniform.h", "core/src/statistics/chi2.h"]}
{"id": "C80", "title": "The runs test computes the Wald-Wolfowitz z-score", "statement": "For every source and n the runs test reports one unnamed sub test; with a values above and b below the middle (equal values are skipped) there is no statistic exactly if a=0, b=0 or a=b=1; otherwise it is (r-mu)/sigma with mu=2ab/(a+b)+1, sigma^2=(mu-1)(mu-2)/(a+b) and the number r of runs, with its two-tailed normal probability.", "quantifier": "every source, every sample count", "why_tests_cant": "The claim is about the whole test as the tool runs it, for every infinite source and every sample count; a unit test can feed it one finite prefix and compare one number.", "anchors": ["core/src/test_definitions.h: runs", "core/src/statistics/run.h"]}
{"id": "C81", "title": "The serial avalanche test", "statement": "For every source and n the serial avalanche test does not fault; for each number a<w of one bits in the first of two successive values, sub test bit(a) is Pearson's test of the number of one bits of the second value in greedily merged groups of expectation at least 5; rows with too few groups, in particular those expecting fewer than 5 pairs, are not reported.", "quantifier": "every source, every sample count", "why_tests_cant": "The claim is about the whole test as the tool runs it, for every infinite source and every sample count; a unit test can feed it one finite prefix and compare one number.", "anchors": ["core/src/test_definitions.h: serial avalanche", "core/src/statistics/serial_avalanche.h"]}
{"id": "C82", "title": "The gap test", "statement": "For every source of 8/16/32/64-bit words and n the gap test ends without a fault. Sub tests 1/2 and 2/2 cut the first n values after each value in the lower, respectively upper half; each is Pearson's test of the gap lengths 0..6 and 7+, expected in proportions 1/2,1/4,...,1/128,1/128 of floor(n/2). Both are reported from 42 values on, none below.", "quantifier": "every source, every sample count", "why_tests_cant": "The claim is about the whole test as the tool runs it, for every infinite source and every sample count; a unit test can feed it one finite prefix and compare one number.", "anchors": ["core/src/test_definitions.h: gap", "core/src/statistics/gap.h"]}
{"id": "C83", "title": "The coupon test", "statement": "For every source and n the coupon test does not fault; it cuts the first n values whenever all five coupons have been seen and its one unnamed sub test is Pearson's test of the segment lengths 5..28 and longer against the coupon collector's probabilities, which sum to one; from 1024 values on there is a statistic.", "quantifier": "every source, every sample count", "why_tests_cant": "The claim is about the whole test as the tool runs it, for every infinite source and every sample count; a unit test can feed it one finite prefix and compare one number.", "anchors": ["core/src/test_definitions.h: coupon", "core/src/statistics/coupon.h"]}
{"id": "C84", "title": "The divisibility test", "statement": "For every source and n<2^64-1 the divisibility test ends without a fault; below 1000 values it reports nothing; otherwise sub test d2 cuts the first n values after every fifth even value and is Pearson's test of the segment lengths 5..19 and longer against negative binomial probabilities. Only the lowest bit of each value matters.", "quantifier": "every source, every sample count", "why_tests_cant": "The claim is about the whole test as the tool runs it, for every infinite source and every sample count; a unit test can feed it one finite prefix and compare one number.", "anchors": ["core/src/test_definitions.h: divisibility", "core/src/statistics/divisibility.h"]}
{"id": "C85", "title": "The permutation test", "statement": "For every source and every sample of 8192 to 2^64-1 bits the permutation test does not fault. The window size k, between 4 and 59, depends on the number of bits only; the bits of the first n values are cut into floor(n*w/k) windows, and the one sub test, named k, is Pearson's test of the numbers of occurrences (each counted up to 255) of the 2^k window values, all expected equally often (between 29 and 104 times), with 2^k-1 degrees of freedom. Samples of at most 46 bits are undefined behaviour.", "quantifier": "every source, every sample count in the range", "why_tests_cant": "The claim is about the whole test as the tool runs it, for every infinite source and every sample count; a unit test can feed it one finite prefix and compare one number.", "anchors": ["core/src/test_definitions.h: permutation", "core/src/statistics/permutation.h"]}
{"id": "C86", "title": "The binary rank tests", "statement": "For every source of words of 8 to 64 bits and every n>=1024 with n*w<2^64 the binary rank test does not fault. The matrix size m is a power of two, at least 2, depending on n and w only, and there are at least 954 matrices; sub test m takes the bits of the first n values in order, sub test m:bit(0) the lowest bits of as many values as there are bits; each always has a statistic, Pearson's test of the ranks over GF(2) against the exact fractions of all m x m bit matrices.", "quantifier": "every source, every sample count in the range", "why_tests_cant": "The claim is about the whole test as the tool runs it, for every infinite source and every sample count; a unit test can feed it one finite prefix and compare one number.", "anchors": ["core/src/test_definitions.h: binary rank", "core/src/statistics/binary_rank.h"]}
{"id": "C87", "title": "The linear complexity tests", "statement": "For every source and every n the linear complexity test does not fault. Below 8192 values it reports nothing; otherwise it cuts the lowest bits of the values into blocks of b=floor(n/1024) bits, and its one sub test b:bit(0), always with a statistic, is Pearson's test of the linear complexities of the first floor(n/b) blocks against the exact fractions of all bit strings of length b.", "quantifier": "every source, every sample count", "why_tests_cant": "The claim is about the whole test as the tool runs it, for every infinite source and every sample count; a unit test can feed it one finite prefix and compare one number.", "anchors": ["core/src/test_definitions.h: linear complexity", "core/src/statistics/linear_complexity.h"]}
{"id": "C88", "title": "The avalanche tests for mixers", "statement": "For every mixer and source the strict avalanche test is Pearson's test of the numbers of changed output bits against n*w*C(w,d)/2^w, and the bit independence test is the two-category chi-square sum over all pairs of input and output bits with w^2-1 degrees of freedom; it is at most n*w^2, and every mixer that is affine over GF(2) gets exactly that value.", "quantifier": "every mixer, every source, every sample count with n*w<2^64", "why_tests_cant": "Ranges over all functions on words; a test fixes one mixer.", "anchors": ["core/src/test_definitions.h: sac, bic", "core/src/statistics/avalanche.h"]}
{"id": "C89", "title": "The catalogue as a whole", "statement": "For every word type, every n>=1 with n*w<2^64, every source and every mixer, each of the twelve tests with its budget returns normally (no undefined behaviour, no endless loop) with a well-formed report: distinct names, at least one degree of freedom, z-scores (mean, runs) with their two-sided normal p-value, non-negative chi-square values otherwise. But for the runs test the names, the presence of statistics, their types and degrees of freedom do not depend on the source. Hence in every battery, under every schedule, a key has at most one result per source, and but for the runs test none or exactly one per source, all comparable with each other.", "quantifier": "every word type, sample count, source, mixer, selection of tests, thread schedule", "why_tests_cant": "Joins all the tests, all sources and all schedules; a test run sees one battery.", "anchors": ["core/src/test_definitions.h", "core/src/evaluate.h: evaluate, create_test_jobs", "core/src/statistics/*.h"]}
{"id": "C90", "title": "p-values of chi-square statistics", "statement": "For every statistic x>=0 and every number of degrees of freedom from 1 up to 1100000, chi2_distribution_cdf ends through its convergence test (never through the limit of 10000 iterations), lies in (0,1], is 1 for x=0 and agrees with the probability that a sum of df squared independent standard normals exceeds x up to 2e-10, relatively where x exceeds df and 2; from 1100000 degrees of freedom on it is the upper tail of the normal law at sqrt(2x)-sqrt(2df-1).", "quantifier": "every real statistic, every real number of degrees of freedom", "why_tests_cant": "A continuum of arguments; accuracy and termination of two iterations must hold up to the cut-off, and a table of reference values misses the slow corner.", "anchors": ["core/src/statistics/distributions.cpp: kf_gammap, _kf_gammap, _kf_gammaq, gamma_regularized", "core/src/statistics/distributions.h: chi2_distribution_cdf", "core/src/statistics/chi2.h"]}
{"id": "C91", "title": "The logarithm of the gamma function", "statement": "For every positive argument log_gamma differs from the logarithm of Euler's gamma function by at most 4e-12 (constants as written, exact arithmetic), so its exponential has relative error below 5e-12, for factorials as well as half integers.", "quantifier": "every positive real argument", "why_tests_cant": "An approximation error over an unbounded continuum; reference values sample it.", "anchors": ["core/src/util/math.cpp: log_gamma"]}
{"id": "C92", "title": "Fisher's method", "statement": "For every list of 1 to 549999 p-values at most 1, the combined p-value lies in (0,1], does not depend on their order, and agrees up to 2e-10 with the probability that as many independent uniform variables have a smaller product, where p-values below 1e-16 count as 1e-16; all ones give 1, a single p-value is returned (up to 2e-10); no p-values at all give 0.", "quantifier": "every list of p-values", "why_tests_cant": "A continuum of lists of unbounded length; the reference is a probability over a cube of arbitrary dimension.", "anchors": ["core/src/statistics/fishersmethod.h: fishers_combined_probabilities", "core/src/util/math.h: log_safe"]}
{"id": "C93", "title": "The Anderson-Darling statistic", "statement": "For all data in [1e-16, 1-1e-16] the reported statistic is n times the integral of (F_n(u)-u)^2/(u(1-u)) over the unit interval, F_n being the empirical distribution function; it is positive, independent of the order of the data, and has n degrees of freedom; the p-value is never below 0.0006/n nor above 1. The p-value agrees with the published critical values: for n >= 2 values, at a statistic of at least 1.933, 2.492, 3.880 it is at most 0.10, 0.05, 0.01, and at a statistic of at most that number it is at least that level, up to 0.0002 + 0.02/n, and the same holds at 1.248 and 0.25 up to 0.0002 + 0.07/n; for two data sets of n values the larger statistic has the smaller p-value, up to 0.000001 + 0.14/n. Empty data has no result. The only failure is an int overflow of n*n, which needs more than 46340 values (and does happen there for a statistic of at most 0.1).", "quantifier": "every list of values", "why_tests_cant": "Equality of a weighted sum over the sorted data with an integral, for data of any length.", "anchors": ["core/src/statistics/andersondarling.h: anderson_darling_stats", "core/src/statistics/distributions.cpp: anderson_darling_cdf, AndersonDarlingInf, AndersonDarlingErrFix"]}
{"id": "C94", "title": "Median, mean, variance and rescaling", "statement": "get_median of sorted non-empty data has at most half of the data on either side and is the central value or the midpoint of the two central values. basic_stats reports the number of values, their mean, and the sum of squares around it, which is minimal at the mean and zero only for constant data; the variances divide it by n and n-1. to_one_sided is twice the smaller tail. rescale_to_01 maps data with range over 1e-6 increasingly onto [0,1], ends to ends, and any other data to 1/2.", "quantifier": "every list of values", "why_tests_cant": "Ranges over all data of any length.", "anchors": ["core/src/statistics/basic.h: get_median, get_mean, get_sum_of_squares, basic_stats", "core/src/util/math.h: to_one_sided, rescale_to_01", "core/src/util/algo.h: rescale_to_01"]}
{"id": "C95", "title": "Paired samples and correlation tests", "statement": "create_serial_xy_by_ref cuts the next 2n values of a stream into consecutive pairs. For every source and n the Pearson, Spearman and Kendall correlation tests cut the stream into consecutive non-overlapping runs of pairs (at most a million, a million, ten thousand pairs) and report the statistic of each run under the name of the run. create_bit_flipped_xy pairs m(v) with m(m(v) with one bit flipped) for every bit.", "quantifier": "every source, mixer and sample count", "why_tests_cant": "Ranges over all sources and all sample counts.", "anchors": ["core/src/statistics/correlation.h: pearson_correlation_test, spearman_correlation_test, kendall_correlation_test", "core/src/util/algo.h: create_serial_xy_by_ref, create_bit_flipped_xy"]}
{"id": "C96", "title": "The test report", "statement": "-test writes, for every catalogue of subjects and every thread schedule, one report file per word type: previous contents are dropped, an introduction and then exactly one line per subject (existing data files, mixers, generators, combiners in this order) follow. Each line is truthful: the named power of two is the first at which the worst p-value fails, or the last power, the marker says whether it failed, and the remarks are those of that battery; nothing else is written. Reports, tables of -inspect-test, pictures and data files of all word types are different files. Debug builds stop at the same power and write nothing.", "quantifier": "every catalogue of subjects, word type, data file, thread schedule, previous content", "why_tests_cant": "Ranges over all subjects, batteries and schedules; a run of the tool sees one.", "anchors": ["tool/src/command/test_command.h: test_command, create_result_callback, write", "core/src/config.h", "core/src/evaluate.h: evaluate_multi_pass"]}
{"id": "C97", "title": "The self-check of the tests", "statement": "-inspect-test sorts every source into accepted, rejected or neither for each test, by the rule of the multi-pass evaluation, and prints for each test exactly the lines this partition calls for: sources that should fail and were not rejected, sources that should pass and were rejected. The sources that should fail are the constants 0, 1 and the mix of 123 and the counter 1, 2, 3, ... .", "quantifier": "every source, test, word type, thread schedule", "why_tests_cant": "Ranges over all sources and schedules.", "anchors": ["tool/src/command/inspect_test_command.h: inspect_test, inspect_tests, is_ok, create_fail_sources"]}
{"id": "C98", "title": "The per-test table", "statement": "The table file of -inspect-test has one row per subject in alphabetical order and a column per test of the catalogue; the cell is the last value assigned for this subject and test, or empty. For every list of subjects and every schedule the cells are the power at which the subject was rejected by the test, prefixed with > if it was not rejected, and each test has a score, the sum of 26 minus the power over the rejected subjects, and its time.", "quantifier": "every list of subjects, every history of assignments, every schedule", "why_tests_cant": "A history property: any sequence of updates, any subjects.", "anchors": ["tool/src/command/inspect_test_command.h: inspect_per_test_command, per_test_result_to_string"]}
{"id": "C99", "title": "-exhaust and the command line", "statement": "-exhaust evaluates each triple of constants with c1, c2 from 9 to 20 and c3 from 9 to 19 exactly once, sums the powers reached without overflow and prints the 21 best in descending order. The tool exits with 1 exactly if it is not given two arguments or the command is unknown, and then does nothing; otherwise with 0, having made the calls of the command in order up to the first that throws.", "quantifier": "every outcome of the evaluations, every list of arguments, every behaviour of the commands", "why_tests_cant": "Ranges over all outcomes and all places where an exception can leave a command.", "anchors": ["tool/src/command/exhaust_command.h: exhaust_command", "tool/src/main.cpp: main"]}
{"id": "C100", "title": "Chi-square tests are calibrated", "statement": "Averaged over all possible inputs of the length a test reads, each counted once, the chi-square statistic of the uniformity test (8/16/32-bit words, up to 2^47 of them) is exactly its degrees of freedom; for 64-bit words it exceeds them by at most n(1024B/2^64)^2 with B bins; the statistics of the linear complexity test and of both binary rank sub tests exceed them by exactly the probability of the outcomes that are left out for being expected at most 5 times. The degrees of freedom do not depend on the data.", "quantifier": "every sample count, word type, and all possible inputs at once", "why_tests_cant": "An exact average over 2^(w n) inputs.", "anchors": ["core/src/test_definitions.h: uniform, linear_complexity, binary_rank", "core/src/statistics/chi2.h", "core/src/statistics/binary_rank.h", "core/src/statistics/linear_complexity.h"]}
{"id": "C101", "title": "The mean test is (almost) calibrated", "statement": "Averaged over all sequences of n words the z-score of the mean test is exactly 0 and its square exactly (2^w+1)/(2^w-1): slightly more than one, noticeably so for bytes only.", "quantifier": "every word size, sample count n>=1, and all sequences at once", "why_tests_cant": "An exact average over 2^(w n) inputs.", "anchors": ["core/src/test_definitions.h: mean", "core/src/statistics/tests.h: z_test", "core/src/util/math.h: rescale_type_to_01"]}
{"id": "C102", "title": "Calibration of the serial avalanche test", "statement": "Which rows of the serial avalanche test are reported, and with how many degrees of freedom, does not depend on the data. Averaged over all sequences of 2n words the statistic of row a exceeds its degrees of freedom by exactly 1-C(w,a)/2^w: the test takes one degree of freedom per row although the number of pairs in a row is itself random.", "quantifier": "every word size, sample count, and all sequences at once", "why_tests_cant": "An exact average over 2^(2 w n) inputs; the bias of at most one is invisible in samples.", "anchors": ["core/src/statistics/serial_avalanche.h", "core/src/test_definitions.h"]}
{"id": "C103", "title": "Expectations of the mixer avalanche tests", "statement": "For every source and sample count, averaged over all functions on words in the role of the mixer, the number of times d output bits change is exactly the expectation n*w*C(w,d)/2^w used by the strict avalanche test, and flipping input bit j changes output bit k in exactly n/2 of the calls, as the bit independence test expects.", "quantifier": "every source, sample count, number of bits, and all functions on words at once", "why_tests_cant": "An average over (2^w)^(2^w) functions.", "anchors": ["core/src/statistics/avalanche.h: avalanche_generate_sac, avalanche_generate_bic", "core/src/test_definitions.h: sac, bic"]}
{"id": "C104", "title": "Calibration of the runs test", "statement": "Over all arrangements of a values above and b values below the cutoff (a, b at least 1, not both 1) the z-score of the runs test is exactly 0 on average, and its square is on average exactly (a+b)/(a+b-1): the test divides the variance by n where the exact one has n-1.", "quantifier": "every a, b, and all arrangements at once", "why_tests_cant": "An exact average over binomial(a+b, a) arrangements, for all a and b.", "anchors": ["core/src/statistics/run.h: generate_runs_data, runs_stats, runs_test"]}
{"id": "C105", "title": "The score of the mixer search", "statement": "The score of an evaluation that ended with 2^p values is the number of powers left plus the Kolmogorov distance of all p-values from the uniform law plus that of the p-values of the worst test; hence it is within two of the powers left, a mixer surviving three more doublings always scores better, but one that fails earlier can be preferred to one failing a single power later. If one test is worst, the score does not depend on the thread schedule. The evaluation goes on while the batteries pass and the score is that of the first failing or the last battery.", "quantifier": "every battery, every thread schedule and thread count, every run of the evaluation", "why_tests_cant": "Ranges over all batteries of p-values and all schedules.", "anchors": ["tool/src/util/sffsutils.h: get_score, sffs_fitness_test"]}
{"id": "C106", "title": "The mixer search command", "statement": "For 8-, 32- and 64-bit words (the 16-bit constructions can overflow) every bit vector of the right size has a fitness, a score between 0 and 17; -search always has a result, whatever the schedules and the randomly drawn vectors, the mixer can be built from the returned vector, the reported score is that mixer's fitness, and it is at least as good as each of the vectors drawn for the seed. A configured seed of the wrong size makes the search return an empty state.", "quantifier": "every fitness landscape given by evaluations, every draw of 100 vectors, every schedule", "why_tests_cant": "Ranges over all evaluations and schedules.", "anchors": ["tool/src/search/search_command.h: search_command, start_search, find_seed", "tool/src/search/search_configs.h: get_xm2x_config"]}
{"id": "C107", "title": "Obviously bad generators are rejected", "statement": "A chi-square statistic of at least 1.4 df + 84 and a z-score of at least 6.6 in absolute value are failures. The mean test rejects every sequence of n words whose mean is off the centre of the range by at least 1.91/sqrt(n) of the range; the uniformity test rejects every sequence of at least 86 equal values, every sequence of at least 256 values whose most significant bit is stuck, and (8, 16, 32-bit words) every sequence in which the count of the most significant bit is off n/2 by half the square root of n(6 n^0.4 + 86). A generator with a constant value or stuck top bit fails every battery from 2^8 values on, under every schedule, and its report line names the first power as failed.", "quantifier": "every sequence of words with the defect, every sample count, word type and schedule", "why_tests_cant": "Power against a class of generators: all sequences with the defect, at every length.", "anchors": ["core/src/statistics/chi2.h: chi2_uniform_stats", "core/src/statistics/tests.h: z_test", "core/src/test_definitions.h: mean, uniform", "core/src/statistics/chi2.h: chi2_stats", "core/src/test_definitions.h", "core/src/evaluate.h: evaluate_multi_pass"]}
{"id": "C108", "title": "Linear generators are rejected", "statement": "The linear complexity test rejects every sequence whose lowest bits satisfy a linear recurrence of order L over GF(2), as soon as it reads 1024(2L+7) values. Every output bit of the xorshift generators satisfies one of order 32 or 64 for every seed, the lowest bit of xorshift128+ and xoroshiro128+ one of order 128. Consequently, whatever the other subjects and the thread schedules, the report of -test has a line for rng32::xorshift that says it failed with at most 2^23 values, for rng32::xorshift_64 and rng64::xorshift with at most 2^24, and for rng32::minstd_rand (top bit always 0) with 2^10.", "quantifier": "every sequence with a recurrence, every order L, sample count, seed, schedule and list of subjects", "why_tests_cant": "Power against a whole class of sequences, for every seed and schedule.", "anchors": ["core/src/statistics/linear_complexity.h", "core/src/test_definitions.h: linear_complexity", "impl/src/prngs32.h", "impl/src/prngs64.h", "tool/src/command/test_command.h: test_command", "core/src/evaluate.h: evaluate_multi_pass"]}
{"id": "C109", "title": "Words in a hyperplane are rejected", "statement": "The binary rank test rejects every sequence whose words have an even number of ones among some nonempty selection of bits (a stuck, repeated or parity bit), from 955w values on, or a constant odd number, from 3820w values on; and, in its second sub test, every sequence whose lowest bits satisfy a linear recurrence of an order below 2^k, once there are bits for 955 matrices of 2^k rows. Consequently the report of -test says of a generator of the first kind that it failed with at most 2^19, 2^20, 2^21, 2^23 values for 8, 16, 32, 64 bits (2^21, 2^23, 2^24 for the second kind up to 32 bits), whatever the other subjects and the schedules.", "quantifier": "every sequence of that kind, every selection of bits, word width, sample count, schedule and list of subjects", "why_tests_cant": "Power against a whole class of sequences.", "anchors": ["core/src/statistics/binary_rank.h", "core/src/test_definitions.h: binary_rank", "tool/src/command/test_command.h: test_command", "core/src/evaluate.h: evaluate_multi_pass"]}
{"id": "C110", "title": "Mixers with predictable bits are rejected", "statement": "Call a pair of input bit j and output bit k of a mixer predictable if whether flipping j changes k does not depend on the input. The bit independence test of n values rejects every mixer with D predictable pairs when n*D >= 7/5*(w^2-1)+84, whatever the source; so every GF(2)-affine mixer (from 86 values) and every mixer ignoring an input bit (from 1024). mix32::mx1, mix64::mx1, mix64::xxh3 and mix64::fast_hash have at least six such pairs; consequently the report of -test has a line for each that says that it failed with at most 2^14 values, whatever the other subjects and the schedules.", "quantifier": "every mixer with predictable pairs, every source, sample count, schedule and list of subjects", "why_tests_cant": "Power against a whole class of mixers; predictability quantifies over all 2^64 inputs.", "anchors": ["core/src/statistics/avalanche.h: avalanche_mixer_bic_test", "impl/src/mixers32.h: mx1", "impl/src/mixers64.h: mx1, xxh3, fast_hash", "tool/src/command/test_command.h: test_command", "core/src/evaluate.h: evaluate_multi_pass"]}
{"id": "C111", "title": "Subjects with too many or too few runs fail at the first power of two", "statement": "If none of the first n values of a stream is 2^(w-1)-1, a > 0 of them have the top bit set and b > 0 not, and the number of changes of the top bit is 6.2 standard deviations (or 3.1*sqrt n) off its mean 2ab/n, the runs test rejects; an alternating top bit is rejected from 41 values on. The report of -test says of every mixer with such a deviation within 1024 values for one permutation of the counter, and of every combiner with such a stream, that it failed with 2^10 values, naming runs; a combiner stream with a stuck top bit is reported with uniform. Hence, whatever the data files, further subjects and schedules, the report lists mix64::mx1, moremur, murmur3, xxh3, fast_hash, mix32::mx1, wang_1, jenkins and combine32::mx1 with power 10 and runs, and combine32::boost with power 10 and uniform, as the published tables do.", "quantifier": "every stream, sample count, subject list, data file and schedule", "why_tests_cant": "Power of a test over all streams, and a verdict under every schedule and thread count.", "anchors": ["core/src/statistics/run.h: generate_runs_data, runs_stats", "impl/src/mixers64.h", "impl/src/mixers32.h", "impl/src/combiners32.h", "results/result_64.md", "results/result_32.md", "tool/src/command/test_command.h: test_command"]}
{"id": "C112", "title": "The search returns a local optimum", "statement": "For every fitness function, tie-break and schedule: if the vector that the floating search returns has fewer than max bits set and not all, no vector with one more bit set is better, and if it has more than min bits set, no vector with one bit fewer is. So unless all bits are set, no change of a single bit improves the mixer returned by -search. A seed that has all (or max) bits set is returned at once, without any other vector being tried.", "quantifier": "every fitness function, number of bits, tie-break and schedule", "why_tests_cant": "Ranges over all fitness landscapes and schedules.", "anchors": ["tool/src/util/sffs.h: run_sffs", "tool/src/search/search_command.h: search_command", "tool/src/search/search_configs.h: get_xm2x_config"]}
{"id": "C113", "title": "What the meta analysis accepts", "statement": "The p-value of the meta analysis is the tail of Kolmogorov's law at l = D*(sqrt n + 0.12 + 0.11/sqrt n): within exp(-20000 l^2), to 1e-80 from l = 0.1 on, never below it for l >= 1/201, and 1 for smaller l; it is between 2e^(-2l^2)-2e^(-8l^2) and 2e^(-2l^2). The meta analysis fails whenever l >= 3.28 or l <= 0.23 and passes whenever 0.235 <= l <= 3.27. So: with at most five p-values it never fails, whatever they are, and a battery with at most five results per test passes exactly if every result does; n perfectly evenly spaced p-values fail for every n >= 6; n p-values that are all 0 or all 1 fail exactly if n >= 10; it fails whenever some value of the empirical distribution is off by 3.28/sqrt n.", "quantifier": "every non-empty list of p-values in [0,1]", "why_tests_cant": "Ranges over all lists of real numbers of all lengths; two transcendental series.", "anchors": ["core/src/statistics/distributions.cpp: kolmogorov_smirnov_cdf", "core/src/statistics/kolmogorov.h: kolmogorov_smirnov_stats", "core/src/util/statistic_analysis.h: get_analysis"]}
{"id": "C114", "title": "Incomplete beta function, t-test and F-test", "statement": "In exact arithmetic beta_regularized ends for all a+b+2 > 0, using the reflection at most once; values at reflected arguments add up to one (except at x = (a+1)/(a+b+2)) and are exactly 0 and 1 at x = 0, 1. In doubles it never returns for (2.6, 0.2, 0.75), but does, after at most one reflection, for all whole and half-integral parameters below 2^50 - every t-test and F-test of samples. student_t_cdf and the correlation p-value do not depend on the sign and are 1 at 0, and the latter is beta_regularized((n-2)/2, 1/2, 1-r^2); f_distribution_cdf is 0 at 0 and exchanging the degrees of freedom while inverting the argument gives the complement (same exception); f_test is twice f_distribution_cdf at the smaller variance over the larger; t_test does not depend on the order of the samples and is 1 for equal means; f_test does not depend on the order for different variances, but for equal ones it does (10/9, no p-value, for sizes 3 and 5; 8/9 for 5 and 3), and is infinite for two samples of 100001 values with equal variances. beta and binomial_coefficient_reals have relative error below 3e-11.", "quantifier": "all real parameters and arguments", "why_tests_cant": "Real parameters; termination; accuracy over a continuum.", "anchors": ["core/src/statistics/distributions.cpp: beta_regularized", "core/src/statistics/distributions.h: student_t_cdf, f_distribution_cdf, beta, binomial_coefficient_reals", "core/src/statistics/tests.h: t_test, f_test", "core/src/statistics/correlation.h: correlation_student_p_value"]}
{"id": "C115", "title": "Asymptotic harmonic numbers and the second Kolmogorov law", "statement": "harmonic_asymptotic(n) is above the harmonic number by at most 1/(12n^2), up to 2e-9, for every n >= 1, so expected_draws_per_coupon(d) is d*H_d to 1e-4 and a relative 2e-9 on both sides of its switch at 1024. kolmogorov_smirnov(D, n) is the distribution function of Kolmogorov's law at x = D sqrt n + 1/(6 sqrt n) + (D sqrt n - 1)/(4n), never above it and to 1e-100 for 0 < x <= 100.", "quantifier": "every n, every D", "why_tests_cant": "Limits of series over all arguments.", "anchors": ["core/src/util/math.h: harmonic, harmonic_asymptotic", "core/src/statistics/coupon.h: expected_draws_per_coupon", "core/src/statistics/distributions.h: kolmogorov_smirnov"]}
{"id": "C116", "title": "AES and RDRAND generators", "statement": "aes_mix is a bijection of the 32-bit words, and inputs that differ in exactly one byte give results that differ in all four. The inverse behind the S-box is the inverse for every byte but zero, and the 64-bit addition adds the two halves as numbers modulo 2^64. rng32::aes is purely periodic with a period common to all seeds, different 32-bit seeds differ at every position, and every word is the n-th output of exactly one. rng32::aes_128 is purely periodic, different 128-bit states stay different for ever, and every word is the n-th output of exactly 2^96 states. One call of it adds 0x110D0B0705030201 to the lower and 0x2F2B29251F1D1713 to the upper half of the state, each modulo 2^64, and does one AES round with these numbers as the key; aes_mix is the first word of one round on four copies of its argument with four copies of 2471660141 as the key. rdrand_32 and rdrand_64 execute the instruction between one and ten times and return the first word delivered, or 0 after ten failures; unless it fails ten times in a row the outputs of rng32::rdrand are exactly the words delivered, each once, in order.", "quantifier": "every seed, state and position, every behaviour of the instruction", "why_tests_cant": "2^128 states; the hardware is not deterministic.", "anchors": ["impl/src/external/aes/aes.cpp: aes_mix, aes_prng128", "impl/src/external/rdrand/rdrand.cpp: rdrand_32, rdrand_64", "impl/src/prngs32.h: aes, aes_128, rdrand"]}
{"id": "C117", "title": "Mersenne twister", "statement": "rng32::mt19937: any 624 consecutive outputs determine all others, before and after, and if they recur p positions later p is a period; from every state the outputs are purely periodic; every tuple of 623 words occurs at any given 623 consecutive positions for exactly 2^32 of the states; different 32-bit seeds differ somewhere in any 624 consecutive outputs, and no seed gives 624 zeros in a row. Every output bit satisfies a linear recurrence of order 19937, so the linear complexity test rejects the generator from every state once it reads 40838144 values, and every evaluation of 2^36 values or more with that test fails, under every schedule.", "quantifier": "every state, seed, position and schedule", "why_tests_cant": "2^19968 states.", "anchors": ["impl/src/prngs32.h: mt19937", "core/src/statistics/linear_complexity.h: linear_complexity_test", "core/src/evaluate.h: evaluate"]}
{"id": "C118", "title": "The shipped catalogue", "statement": "The subjects registered for 8, 16, 32 and 64 bits have the documented names, in the documented order, and no two subjects of a word size share a name. Every registered generator repeats itself from the first value on, whatever the seed. The report of -test has exactly one line per existing data file and registered subject, in this order, whatever the schedule, and other files are unchanged. Among the lines: with 32 bits mix32::mx1, wang_1, jenkins and combine32::mx1 fail with 2^10 values naming runs, rng32::minstd_rand and combine32::boost fail with 2^10 values naming uniform, rng32::xorshift fails with at most 2^23 values and xorshift_64 with at most 2^24; with 64 bits mix64::mx1, moremur, murmur3, xxh3 and fast_hash fail with 2^10 values naming runs and rng64::xorshift with at most 2^24; mix8::xm3x fails with 2^10 naming uniform and mix16::xm3x with at most 2^16.", "quantifier": "every data file, seed and schedule", "why_tests_cant": "The table has 61 subjects and evaluations of up to 2^25 values under arbitrary schedules.", "anchors": ["impl/src/mixers8.h: get_mixers", "impl/src/prngs32.h: get_prngs", "impl/src/combiners32.h: get_combiners", "tool/src/command/test_command.h: test_command"]}
{"id": "C119", "title": "Samples that are too even", "statement": "If among the first n \u2264 2^45 values every word occurs equally often, the uniformity test's statistic is 0 and its p-value 1, and that counts as a failure. So rng32::mx1, mx2 and mx3 fail the uniformity test with 2^32 or more values for every seed; any source that goes through all words once per period fails every evaluation of 2^w or more values (a power of two) that includes the test; and -test reports every bijective mixer of 8-bit words as failed with 2^10 values naming uniform and every bijective mixer of 16-bit words as failed with at most 2^16 values.", "quantifier": "every word size, stream, seed, mixer, set of subjects and schedule", "why_tests_cant": "It is a statement about all bijections (2^w factorial of them) and all streams.", "anchors": ["core/src/statistics/chi2.h: chi2_uniform_stats", "core/src/statistics/uniform.h: uniform_test", "core/src/evaluate.h: evaluate", "tool/src/command/test_command.h: test_command"]}
{"id": "C120", "title": "Rounding errors of the statistics", "statement": "Evaluated in double precision (every operation rounded to the nearest of 53 bits, square root with relative error at most 2^-53; no overflow or underflow), the statistics differ from their exact values by a guaranteed amount. Chi-square of n classes: same degrees of freedom, missing exactly if missing exactly, relative error at most (n+4)/2^51; if the expected counts have a relative error of at most d, the square root of the statistic X is off by at most (d+2(n+4)/2^51) sqrt(X) + 3 d sqrt(total expected count). Uniformity test of at most 2^53 words: relative error at most 2^-22. Mean test of n \u2264 2^45 words: the z-score is off by at most sqrt(12n)(2n+20)/2^51, below 0.005 for n \u2264 2^27, where a mean off the centre by 1.92/sqrt(n) of the range is rejected. Runs test of n \u2264 2^51 words: a z-score exists exactly if it exists in exact arithmetic and is off by at most (120|z|+60 sqrt(n))/2^51. Kolmogorov-Smirnov distance of at most 2^53 sorted values in [0,1]: off by at most 2^-51.", "quantifier": "every stream, sample size up to the stated bound, set of counts and correctly rounding square root", "why_tests_cant": "The error of a sum of up to 2^53 rounded terms is a worst case over all data; no test exhibits it.", "anchors": ["core/src/statistics/chi2.h: chi2_stats, chi2_uniform_stats", "core/src/statistics/basic.h: get_mean_rescale_01, mean_test", "core/src/statistics/tests.h: z_test", "core/src/statistics/run.h: runs_stats, runs_test", "core/src/statistics/kolmogorov.h: kolmogorov_smirnov_stats"]}
{"id": "C121", "title": "Pictures and data files", "statement": "-ppm, for words of 16 bits or more and any mixers with distinct names: the command ends; for every mixer the file ppm<bits>/<name>.ppm below the root is a PPM file of 512 x 512 pixels whose data are, byte by byte from the least significant one, the values mix(0), mix(1), ..., mix(2^18-1); if the data file exists, trng.ppm shows its words in a circle; files that cannot be opened and all other files are unchanged. A viewer shows only the announced pixels, that is the first 2^18/sizeof(T) words. The same file means the same 2^18 values. For 8-bit words the command never ends. export_rdrand(p) appends 2^p values to the data file: read as 8, 16, 32 or 64-bit words it then holds the old words followed by the new values split from the least significant end. build_trng writes the concatenation of the files it finds. Nothing else changes.", "quantifier": "every mixer catalogue, root path, file system, data file and power", "why_tests_cant": "All file systems and functions.", "anchors": ["tool/src/command/ppm_command.h: ppm_command", "core/src/util/ppm.h: write_ppm", "tool/src/main.cpp: build_trng, export_rdrand", "core/src/trng_data.h: get_trng_data, get_drng_data"]}
{"id": "C122", "title": "A whole run of -test", "statement": "tfr-tool <root> -test, with data files that are missing or hold at least eight bytes, under every schedule and every outcome of the evaluations: exit code 0; exactly the files result_8.md, result_16.md, result_32.md and result_64.md below the root are written; each consists of the introduction and one line per subject, the existing data files first, then mixers, generators and combiners in catalogue order. Twelve subjects are reported as failed with 2^10 values naming runs or uniform (mix32::mx1, wang_1, jenkins, combine32::mx1, mix64::mx1, moremur, murmur3, xxh3, fast_hash; mix8::xm3x, rng32::minstd_rand, combine32::boost) and four with at most 2^24 values (mix16::xm3x, rng32::xorshift, rng32::xorshift_64, rng64::xorshift).", "quantifier": "every root path, disk content, number of processors and schedule", "why_tests_cant": "A run evaluates 61 subjects with up to 2^25 values each under arbitrary schedules.", "anchors": ["tool/src/main.cpp: main", "tool/src/command/test_command.h: test_command", "core/src/config.h: config", "core/src/trng_data.h: get_trng_data, get_drng_data"]}
{"id": "C123", "title": "False alarms of the mean test", "statement": "Over all inputs, each counted once: the z-score of the mean test of n words is c or more in size for at most a fraction 2 exp(-c^2/2 * (2^w-1)/(2^w+1)) of them. For words of 8 bits or more, at most 4 of 10^8 inputs fail the test, at most 1 in 4000 gets a result shown as suspicious, and at most 124 of 10^8 fail it with 2^k samples for any k from 10 to 40.", "quantifier": "every word size, number of samples and bound c, over all possible inputs of any greater length", "why_tests_cant": "The fraction is over 2^(w n) inputs; sampling cannot see rates of 10^-8.", "anchors": ["core/src/statistics/basic.h: mean_test", "core/src/statistics/tests.h: z_test", "core/src/util/statistic_analysis.h: statistic_analysis"]}
{"id": "C124", "title": "False alarms of the runs test", "statement": "Over all inputs of words of 8 bits or more, each counted once: at most 1 in 10000 fails the runs test with n samples for any n >= 1024, at most 1 in 10^6 for any n >= 65536, and at most 7 in 10000 fail it with 2^k samples for any k from 10 to 40. This includes the value the test skips, which biases the signs of the others.", "quantifier": "every word size from 8 bits on and number of samples, over all possible inputs of any greater length", "why_tests_cant": "The fraction is over 2^(w n) inputs.", "anchors": ["core/src/statistics/run.h: runs_test, runs_stats, generate_runs_data", "core/src/statistics/tests.h: z_test", "core/src/util/statistic_analysis.h: statistic_analysis"]}
{"id": "C125", "title": "The end of the mixer search", "statement": "After a search with -search (32 or 64-bit or 8-bit words) the tool evaluates the mixer it found once more and prints exactly one battery: that of the first size 2^k, k = 10..25, at which the mixer does not pass, or that of 2^25. The outcome agrees with the score the search reported: the score is between 25 - k and 27 - k, and it is exactly the score of the printed battery when one test is worse than all others, whatever the thread schedules of the search and of the last evaluation were.", "quantifier": "every result the search can have under any schedule, every word type but 16 bits, every schedule and number of threads of the last evaluation", "why_tests_cant": "The search ends in one of astronomically many states and both evaluations are concurrent.", "anchors": ["tool/src/search/search_command.h: search_command", "tool/src/command/test_command.h: create_result_callback", "tool/src/util/sffsutils.h: sffs_fitness_test"]}
{"id": "C126", "title": "The self-check of -inspect-test on the sources to be rejected", "statement": "The first part of -inspect-test (the constants and the counter, each rotated, reversed and complemented, which every test should reject) prints exactly one line PASS for the tests mean, runs, sac and bic, for all four word sizes and under every thread schedule. For mean, sac and bic this holds whatever the sources are: with 2^25 values the mean test has no result, so the check of the mean can not find anything, and sac and bic reject the identity mixer itself (sac rejects every mixer that changes exactly one output bit for each changed input bit). The runs test accepts exactly four of the sources with 16, 32 and 64-bit words, one of each kind, namely those that put bit 1 of the counter on top, and none with bytes: this is the 4 that the self-check allows.", "quantifier": "every word type, number of hardware threads, schedule, every list of sources (mean, sac, bic), every rotation and kind of the fail sources (runs)", "why_tests_cant": "There are up to 1024 sources, 16 sizes each up to 2^25 values, and all thread schedules.", "anchors": ["tool/src/command/inspect_test_command.h: inspect_tests, inspect_test, create_fail_sources, is_ok", "core/src/statistics/run.h: runs_test", "core/src/statistics/avalanche.h: avalanche_mixer_sac_test, avalanche_mixer_bic_test", "core/src/test_definitions.h: get_tests"]}
{"id": "C127", "title": "Numbers and p-values as text", "statement": "A number written by the tool can be read back as a decimal number that differs from it by at most five millionths of its value; numbers with at most six significant digits are written exactly; a larger number is never written as a smaller one; only zero is written as 0; a negative number is the text of its absolute value behind a minus sign. The text of a p-value from 0 to 1 is that number up to 0.9999995, and above it 1 - q, where q is the text of the distance to one, to within five millionths of the distance; only the p-value one is written as 1 and only zero as 0. So every failing p-value can be told from a perfect one.", "quantifier": "every real number (numbers), every real from 0 to 1 (p-values)", "why_tests_cant": "The claim is about all numbers, including those whose six digits round up to the next power of ten.", "anchors": ["core/src/util/statistic_analysis.h: p_value_to_string", "core/src/format_result.h: print_battery_result"]}
{"id": "C128", "title": "The report of a battery and the histogram", "statement": "The report printed for a battery of 2^k samples is: a heading with the subject, k, the number of samples, the word size and the whole seconds; the names of the tests with results, each once, in alphabetical order; a table with aligned columns headed test, p-value, remark and stream/description whose rows are, from worst to best, the at most three worst results of each test among those of p-value at most 1e-5, each with the test, the p-value, the remark and the source; and PASSED or FAILED with k, the number of failures and the number of other suspicious results, or INCONCLUSIVE for a battery without results. Every battery has such a report. The histogram of numbers from 0 to 1 is thirty bars and an empty line: no star exactly for an empty bin, a star for each value if no bin has more than 80, never fewer stars for more values, otherwise 80 c / most rounded up (to within 1e-12), so never more than 81 stars.", "quantifier": "every well-formed battery of 2^k samples, every outcome of the sorts; every list of fewer than 2^53 numbers from 0 to 1", "why_tests_cant": "There are unboundedly many batteries and data sets; the bars are computed in binary64, where 80/147*147 is more than 80.", "anchors": ["core/src/format_result.h: print_battery_result, filter_to_show, get_tests, draw_histogram", "core/src/util/table.h: table", "core/src/util/statistic_analysis.h: get_analysis"]}
{"id": "C129", "title": "Self-check: gap, divisibility, binary rank and linear complexity", "statement": "The self-check of -inspect-test prints PASS for the gap, the divisibility, the binary-rank and the linear-complexity test, on every word size and machine: each rejects every rotated, reversed or complemented counter and every constant with at most 2^25 samples. More generally the gap test rejects every sequence in which the lower half of the words is missed exactly once too rarely or hit twice in a row too rarely, and the divisibility test every sequence with too few lone odd words or too few pairs of even words in a row.", "quantifier": "every word size, every thread count, every analysis and evaluation that follows the code; every sequence (gap, divisibility)", "why_tests_cant": "The self-check runs millions of samples on hundreds of sources per word size; the general rejections are about all sequences.", "anchors": ["tool/src/command/inspect_test_command.h: inspect_tests, inspect_test, create_fail_sources", "core/src/statistics/gap.h: gap_test", "core/src/statistics/divisibility.h: divisibility_test", "core/src/statistics/binary_rank.h: binary_rank_test", "core/src/statistics/linear_complexity.h: linear_complexity_test"]}
{"id": "C130", "title": "The output of the mixer search", "statement": "The C code printed for a mixer of the search (16, 32 or 64-bit words) means, to somebody who copies it, exactly the function the mixer computes, and the numbers in the printed list are its constants; with bytes the constants are written as characters and no such code can be read. During the search, for every fitness function and schedule, every progress line is honest: the new vector has the k ones and the score printed, k changes by one from line to line, downwards only for something better than everything seen with so few bits, and the old score is the best seen before with k bits. The result is the seed or one of the vectors printed, and the best of them; the last line has k = max unless the seed already has max bits. The output of -search ends with the bits, the constants, the score and the code of the mixer evaluated at the end.", "quantifier": "every bit vector of each construction, every fitness function, schedule and random seed vectors", "why_tests_cant": "The vectors, fitness landscapes and schedules cannot be enumerated.", "anchors": ["tool/src/search/search_configs.h: to_str, to_arr_str", "tool/src/util/sffsutils.h: to_string, create_sffs_printer", "tool/src/util/sffs.h: run_sffs (callback)", "tool/src/search/search_command.h: start_search", "core/src/util/bitvector.h: to_string"]}
{"id": "C131", "title": "What the tool prints", "statement": "-test: about each subject, in order, the console shows exactly the reports with 2^10, 2^11, .. values up to the power of two in its line of the report file; every report but the last says PASSED or INCONCLUSIVE and the last says FAILED exactly if the file says so; a report says PASSED with no failures, FAILED with at least one, or INCONCLUSIVE without results. -exhaust: for each of the twelve first constants a block of twelve lines with the eleven powers reached and the sum of the block, then the sum of all, then the 21 largest powers in descending order. -inspect-test: two headings, the lines of the self-check, and a warning exactly if neither data file exists; the per-test commands print one report per subject, that of the last evaluation. main prints a usage line and returns 1 unless there are two arguments, names the command, says Unknown command and returns 1 for any but the five, and otherwise prints what the calls print and the message of a runtime error that ends them, returning 0.", "quantifier": "every command line, catalogue, outcome of the evaluations, schedule and order of equal results", "why_tests_cant": "The text depends on all outcomes of all evaluations; a test sees one run.", "anchors": ["tool/src/main.cpp: main", "tool/src/command/test_command.h: create_result_callback, test_command", "tool/src/command/exhaust_command.h: exhaust_command", "tool/src/command/inspect_test_command.h: inspect_test_command, create_pass_sources, create_per_test_callback", "core/src/format_result.h: print_battery_result"]}
{"id": "C132", "title": "Self-check: uniformity", "statement": "The self-check of -inspect-test prints PASS for the uniformity test, on every word size, machine and schedule: with 2^25 values the test rejects every constant and every rotated, reversed or complemented counter. With 32 and 64-bit words every such view of the counter gets a result that counts as failed, either because high bits never change or because the values are spread too evenly. Too even means: a chi-square value of at most a third of the degrees of freedom (120 to 1100000 of them) gets a p-value of at least 1 - 1e-9 and counts as a failure.", "quantifier": "every word size, permutation and rotation of the counter, constant, thread count, analysis and evaluation that follows the code; every chi-square value and number of degrees of freedom in the range", "why_tests_cant": "It is about all views of 2^25 values and all schedules; the evenness must be derived from the carry structure and the rounding of 64-bit words to doubles.", "anchors": ["core/src/statistics/uniform.h: uniform_test", "core/src/statistics/chi2.h: chi2_uniform_stats, create_bin_count_pow2", "core/src/util/math.h: rescale_type_to_01", "tool/src/command/inspect_test_command.h: create_fail_sources, inspect_tests"]}
{"id": "C133", "title": "Self-check: serial avalanche", "statement": "The serial avalanche test rejects every sequence of 65536 pairs of words or more in which a word with exactly half of its bits set is never followed, within a pair, by one with exactly b bits set, where b is the half or differs from it by one. So it rejects every rotated, reversed or complemented counter with any such number of pairs, because within a pair the number of set bits never grows, and the self-check of -inspect-test prints PASS for it, on every word size, machine and schedule.", "quantifier": "every word size, number of pairs from 2^16 on, sequence, view of the counter, constant, thread count, analysis and evaluation that follows the code", "why_tests_cant": "It is about all sequences and all views of the counter.", "anchors": ["core/src/statistics/serial_avalanche.h: serial_avalanche, serial_avalanche_stats", "core/src/util/algo.h: merge_bins", "tool/src/command/inspect_test_command.h: create_fail_sources, inspect_tests"]}
{"id": "C134", "title": "Self-check: permutation test", "statement": "The permutation test rejects every source whose bits, word after word, repeat with period 2^m as soon as it reads more than 104*m*2^m bits (at least 8192), because most bit patterns never occur. With 1176 to 1290 words it rejects every rotated, reversed or complemented counter of 16, 32 or 64 bits, because one pattern comes too often. So the self-check of -inspect-test prints PASS for the permutation test, on every word size, machine and schedule.", "quantifier": "every word size, periodic source, sample size, view of the counter, constant, thread count, analysis and evaluation that follows the code", "why_tests_cant": "It is about all periodic sources of any period and all views of the counter.", "anchors": ["core/src/statistics/permutation.h: permutation_test, permutation_stat, get_permutation_histogram", "tool/src/command/inspect_test_command.h: create_fail_sources, inspect_tests", "core/src/types.h: limit_n_slow"]}
{"id": "C135", "title": "Self-check: coupon test", "statement": "With 7000 values or more the coupon test rejects every source in which any 13 values in a row show all five coupons, every source in which no 7 or fewer values in a row do, and every source in which all stretches that show the five coupons contain one of at most n/30 positions; from 40000 values on it is enough that no 5 values in a row show all five. It rejects every constant from 7000 values on, every rotated, reversed or complemented counter of 16, 32 or 64 bits with 7000 to 8191 values and of 8 bits from 40000 values on. So the self-check of -inspect-test prints PASS for it, on every word size, machine and schedule.", "quantifier": "all sources with the named property, sample sizes in the stated ranges, all word sizes, rotations and schedules", "why_tests_cant": "sequences and schedules cannot be enumerated; the coupon of each value is computed with rounded doubles", "anchors": ["core/src/statistics/coupon.h: coupon_test, coupon_stats, expected_probabilities, collect_coupons", "tool/src/command/inspect_test_command.h: create_fail_sources, inspect_tests", "core/src/types.h: limit_n_slower"]}
{"id": "C136", "title": "The first part of -inspect-test is always the same", "statement": "For every word size and machine and under every schedule of the threads, the part of -inspect-test about the sources every test should reject prints exactly one line for each of the twelve tests, in their order, and every line says PASS: there is no test that accepts a constant or a view of the counter with all of 2^10 .. 2^25 samples, except the runs test, which for 16-bit words and wider accepts exactly four views (none for bytes) and whose line allows for them. Without data files the whole text of -inspect-test for a word size is determined: the headings, these lines, the warning about missing sources, and PASS for the ten tests of streams.", "quantifier": "all word sizes, machines, schedules and data files", "why_tests_cant": "each schedule may give other intermediate states, the statement is about all tests, all sizes and all views at once", "anchors": ["tool/src/command/inspect_test_command.h: inspect_test_command, inspect_tests, inspect_test, create_fail_sources", "core/src/test_definitions.h: get_tests", "core/src/evaluate.h: evaluate, evaluate_multi_pass"]}
{"id": "C137", "title": "The data files are read once per run", "statement": "After set_config and any sequence of requests (get_trng_data/get_drng_data with any word types), changes of the files by others and further calls of set_config: a request returns nothing exactly when the currently configured file does not exist at that moment; otherwise it returns the full words of the bytes that the first successful request for that kind of file saw - even if the file or the configured path has changed since - so all word types see the same bytes throughout a run. The message about reading is printed by the first successful request only; the two kinds of files do not influence each other. Without set_config a request is undefined behaviour. (Files below 2^63 bytes.)", "quantifier": "every history of requests, file changes and configurations; every word type", "why_tests_cant": "A history property: the stale data appear only for particular interleavings of requests and changes.", "anchors": ["core/src/trng_data.h: get_trng_data, get_drng_data, get_or_read_trng_data, get_or_read_drng_data", "core/src/config.cpp: get_config, set_config"]}
{"id": "C138", "title": "The table of times of -inspect-test", "statement": "For every outcome of the evaluations and every schedule the speed part of -inspect-test ends and writes one file: the header and, if any test gave results, a single row with the name of the default mixer and one cell per test. A cell holds the milliseconds of the one evaluation with which the passes of that test ended (the first rejection, or 2^25 values), not of all passes, and is empty if that evaluation gave no results. In particular the cell of the mean test is empty unless it rejects the mixer with 2^10 to 2^20 values.", "quantifier": "every word type, machine, schedule, outcome and time", "why_tests_cant": "All outcomes and schedules.", "anchors": ["tool/src/command/inspect_test_command.h: inspect_test_speed_command, create_per_test_callback, write"]}
{"id": "C139", "title": "Making the data files: the instruction, the enumeration, the progress", "statement": "export_rdrand(p), for p from 0 to 59, appends the bytes of exactly the next 2^p values of rdrand_64 to the configured file, touches no other file and prints a dot for every started ten million values; get_drng_data<uint64_t> then sees the words of before (if the file held words) followed by the new ones. Negative p or p>=64 is undefined behaviour, p from 60 to 63 throws, and nothing is written. build_trng writes exactly the contents of the enumerated regular files with extension .bin, whole, in the order of the enumeration; directories, other extensions and file names that only start with a dot are left out.", "quantifier": "every behaviour of the instruction, number, previous contents, directory", "why_tests_cant": "All directories, contents and behaviours of the hardware.", "anchors": ["tool/src/main.cpp: export_rdrand, build_trng", "core/src/util/fileutil.cpp: for_each_file, for_each_file_recursively"]}
{"id": "C140", "title": "How many jobs and threads a battery has", "statement": "A battery of -test has ten jobs per source, twelve for a mixer: 1280 for a data file, 48 times the word width for a mixer, 40 times for a generator and 30 plus 120 times for a combiner, never more than 7710. default_max_threads is the reported number of hardware threads less four, but at least two - except that with zero to three reported threads the unsigned difference wraps around to over four thousand million. Under every schedule run_jobs never has more workers than the requested number or the number of jobs, exactly the smaller of the two have been started and have ended when it returns, and there is a schedule in which all of them run a job at once; so on a machine that reports fewer than four threads every job gets a thread of its own (3072 for a 64-bit mixer). For fewer than 2^32 jobs the conversion to unsigned int is exact; a job list whose length is a multiple of 2^32 would not be run at all.", "quantifier": "every number of reported hardware threads, word type, catalogue, job list, requested number of threads and schedule", "why_tests_cant": "The wrap-around needs a machine with fewer than four threads, and the number of threads must hold at every step of every schedule.", "anchors": ["core/src/types.h: default_max_threads", "core/src/util/jobs.h: run_jobs", "core/src/evaluate.h: create_test_jobs, evaluate", "tool/src/command/test_command.h: test_command"]}
{"id": "C141", "title": "Vectors of rescaled words and sums", "statement": "rescale_type_to_01_by_ref takes exactly the next n values of the caller's stream, so that a second call goes on where the first stopped, and returns their rescaled values in order, all from 0 to 1, larger words never giving smaller numbers; the vector overload of rescale_type_to_01 gives the same for the words themselves. accumulate of unsigned words is their sum modulo two to the width. accumulate of doubles is not their sum: the sum is cut off to a whole number after every addition, so numbers from 0 to below 1 always give 0; whole numbers are added exactly up to a total of 2^53; and a vector that starts with a number of -1 or less is undefined behaviour.", "quantifier": "every stream, count, vector of words of at most 64 bits and vector of doubles", "why_tests_cant": "All vectors; the cut-off happens inside a standard algorithm because of the type of its initial value.", "anchors": ["core/src/util/algo.h: rescale_type_to_01_by_ref, rescale_type_to_01, accumulate"]}
{"id": "C142", "title": "Streams over the data files", "statement": "create_trng_stream and create_drng_stream, after set_config and any history of requests, changed files and changed configurations: they return nothing exactly when the configured file does not exist at that moment; otherwise a stream named trng or drng that replays in a circle, from the start index on, the words of the bytes the first successful request for that file saw. Starting later is the same as skipping values, also when the 64-bit index wraps. All streams over one data file that a run makes with the same word type and start index deliver the same values, whatever happened to file and configuration in between. A file with less than one word gives a stream whose every call divides by zero.", "quantifier": "every history of requests, file changes and configurations, every word type, start index and position", "why_tests_cant": "histories of file changes between requests and all start indices cannot be enumerated; tests see one file that never changes", "anchors": ["core/src/trng_data.h: create_trng_stream, create_drng_stream", "core/src/streams.h: create_stream_from_data"]}
{"id": "C143", "title": "Tables can be read back", "statement": "A table cell made of an int, unsigned int, int64_t or uint64_t reads back as exactly that integer and contains no blank or newline; one made of a double reads back as a number within five millionths of it. After any calls that are not undefined, get_column_size is two more than the longest cell of the column, and undefined for a column that does not exist. What is printed determines the table: two tables with the same headers (at least two, not empty, not starting with a blank) and full rows of cells without newlines and trailing blanks that print as the same text have the same cells, so in each place the same integers. (A trailing blank in a cell cannot be seen.)", "quantifier": "all headers, all numbers of rows, all cells; every history of calls (get_column_size)", "why_tests_cant": "the padding of one column depends on all rows; that no two tables collide is a statement about all pairs of tables", "anchors": ["core/src/util/table.h: app, col, to_string, get_column_size"]}
{"id": "C144", "title": "What a test can see of a source", "statement": "Every stream test, asked for n values, gives the same report for two sources that agree on the values its budget m entitles it to: the first m, for serial-avalanche the first 2m, for binary-rank the first w*m. A mixer test depends on the mixer only through its values at the m source values, at their images and at the one-bit changes of these images. So the possible results of evaluate with n values, and all possible runs up to a stop power p, are the same for sources of the same names that agree on the first w*n (w*2^p) values; in particular for recordings of that many values, replayed. The bound is attained: mean changes when only the last of the n values does. (Numbers of bits below 2^64.)", "quantifier": "all pairs of sources and of mixers, word types, tests, numbers of values, setups, schedules", "why_tests_cant": "it compares the runs on all pairs of sources that agree on a prefix", "anchors": ["core/src/test_definitions.h: get_tests", "core/src/evaluate.h: create_test_jobs, evaluate", "core/src/statistics/serial_avalanche.h: serial_avalanche_count", "core/src/statistics/binary_rank.h: binary_rank_isolated_bit_stats", "core/src/statistics/avalanche.h: avalanche_generate_sac, avalanche_generate_bic"]}
{"id": "C145", "title": "What each test looks at", "statement": "Two sources get the same report, however they differ otherwise, if for the values read: the lowest bits agree (linear-complexity, divisibility; even across word sizes); the top bits agree and both or neither value is the largest word without top bit (runs); both or neither value is in the lower half, for 8 to 32-bit words: the top bits agree (gap); the values stand for the same coupons (coupon); the values have equally many set bits (serial-avalanche, which therefore does not notice rotations and bit reversal); the values are the same in another order (mean, uniform); the words spell the same sequence of bits, even when cut into words of another size (permutation, first part of binary-rank). Complementing all values negates the z-score of mean and keeps its p-value.", "quantifier": "all pairs of sources, numbers of values, word types", "why_tests_cant": "it compares the reports on all pairs of sources with a common feature", "anchors": ["core/src/statistics/linear_complexity.h: linear_complexity_test", "core/src/statistics/divisibility.h: divisibility_test", "core/src/statistics/run.h: runs_test", "core/src/statistics/gap.h: gap_test", "core/src/statistics/coupon.h: coupon_test", "core/src/statistics/serial_avalanche.h: serial_avalanche", "core/src/statistics/basic.h: mean_test", "core/src/statistics/uniform.h: uniform_test", "core/src/statistics/permutation.h: permutation_test", "core/src/statistics/binary_rank.h: binary_rank_stats"]}
{"id": "C146", "title": "Which results a battery has", "statement": "A battery of 2^k samples of all tests (k up to 57, at least one source and one thread) has results of the mean test exactly for k at most 20, of the uniformity test always, of the gap, divisibility, permutation and strict avalanche test exactly from k = 12, of the coupon, binary rank and bit independence test exactly from k = 14, of the linear complexity test exactly from k = 19, of the two avalanche tests for mixers only; a key of such a test has none or one result per source. Sub test bit(a) of serial-avalanche has results exactly from a table of numbers of samples on (4 tables, 8 to 64 bits; the same for a and w - a set bits; for 64 bits and a = 0, 1 or 63 more than a 64-bit count can express), so serial-avalanche reports nothing below 2^7, 2^8, 2^11, 2^14 samples for words of 8, 16, 32, 64 bits. The runs test has a result exactly if the samples of some source have a value of the upper half of the words and one below the largest of the lower half, and not just one of each. So the first pass of -test (2^10) of a 32 or 64 bit generator rests on mean, uniform and runs alone. In every battery the keys are: mean, uniform, runs, coupon, sac, bic without sub test; serial-avalanche with bit(a), a below the word width; gap with 1/2 and 2/2; divisibility with d2; permutation with the window size, 4 to 59; binary-rank with a power of two of at least 2, alone and followed by :bit(0); linear-complexity with a block size of at least 8 followed by :bit(0).", "quantifier": "every word type, number of samples, list of sources and mixer, thread schedule", "why_tests_cant": "the budgets use floating-point powers and every size, source and schedule counts", "anchors": ["core/src/test_definitions.h get_tests", "core/src/types.h limit_n", "core/src/evaluate.h create_test_jobs", "core/src/statistics/gap.h", "core/src/statistics/permutation.h", "core/src/statistics/binary_rank.h", "core/src/statistics/linear_complexity.h", "core/src/statistics/serial_avalanche.h"]}
{"id": "C147", "title": "The published algorithms", "statement": "Every mixer, combiner and generator of the catalogues computes, for every argument and every seed and at every position, the published sequence of word operations of its name: the shifts, rotations and constants of the murmur, prospector, h2, Wang and Jenkins hashes, nasam, moremur, lea64, degski64, splitmix, murmur3, xxh3, fasthash and mx1-mx3, hash_combine, SplitMix64, PCG (RXS M XS and XSH RR), xorshift, xorshift128+, xoroshiro128+, xoshiro128+ and ++, sfc, minstd_rand and MT19937, with the seed words each of them starts from (the first one, the first two, or the lower halves of all four; PCG advances once, sfc twelve times). The 8 and 16-bit mixers never overflow. A 32-bit generator named _64 delivers the lower halves of the 64-bit one, except xorshift_64, which delivers the upper halves; the 8 and 16-bit splitmix deliver the upper bits, the 8 and 16-bit pcg the lower ones.", "quantifier": "every mixer, combiner and generator, argument, seed and position", "why_tests_cant": "A wrong digit of a constant or a wrong shift leaves a bijection that looks just as random; known answers check single arguments only.", "anchors": ["impl/src/mixers8.h", "impl/src/mixers16.h", "impl/src/mixers32.h", "impl/src/mixers64.h", "impl/src/combiners32.h", "impl/src/prngs8.h", "impl/src/prngs16.h", "impl/src/prngs32.h", "impl/src/prngs64.h", "core/src/prng.h: seed_data", "impl/src/external/pcg/pcg_random.hpp", "impl/src/external/sfc/sfc64.h"]}
{"id": "C148", "title": "Whether the sources of a generator overlap", "statement": "The seeds a generator is tested with are always the same: the largest of 1024 words. With the 256 seeds for 64 bits no two sources of rng64::mx1, mx2, mx3 and splitmix, the rotations undone, have a common value among the first 2^44 of each; the 64-bit generators behind the 128 sources of rng32::mx1_64, mx2_64, mx3_64 and splitmix_64 have none among the first 2^47. But the 128 sources of the generators with a 32-bit counter overlap: none of rng32::mx1 before 67469 values (of mx2 and mx3 before 566313), but source 35 of mx1 equals source 47 from its value 662178 on and source 108 of mx2 and mx3 equals source 76 from its value 753519 on; source 45 of rng32::xorshift equals source 106 from its value 1076651 on, and source 32 of rng32::minstd_rand equals source 64 from its value 82694 on. (The sources of xorshift have no common value before 603456 values, those of minstd_rand none before 82694.) The sources of rng64::pcg have no common value within 2^48 of each, those of rng64::xorshift none within 2^46. So from 2^20 samples on their p-values are not independent, which the meta analysis supposes.", "quantifier": "every position of every source", "why_tests_cant": "A test sees sources one at a time; that two of them never meet is a statement about all pairs of 2^44 positions.", "anchors": ["tool/src/util/test_setups.h: generate_seeds, create_prng_test_setup", "impl/src/prngs64.h", "impl/src/prngs32.h"]}
