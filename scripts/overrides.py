# Corrections and fuller texts for properties written early on (applied by gen_properties.py).
WHY = {
"C06": "The number and order of the calls must be right for every length and content of the range and every state the callback carries along; a test sees three literals.",
"C09": "A history property: every sequence of operations of every length, with every content. A test runs a few short histories, and the interesting faults (bits surviving beyond the size, a partial last byte) need particular histories.",
"C11": "The streams are infinite and the source list arbitrary; a test can compare finitely many values of a few sources.",
"C13": "Injectivity is a statement about 2^63 pairs of words per mixer; tests compare a few outputs with reference values, which also pass for a mixer that loses a bit.",
"C14": "Injectivity is a statement about 2^127 pairs of words per mixer; no test can search them, and a broken shift constant still passes reference values that do not exercise it.",
"C16": "There are up to 2^88 bit strings per construction; an out-of-range shift may be reached by one of them only.",
"C17": "Quantifies over all decoded constants (up to 2^88) and, for each, over all words.",
"C18": "A period of 2^64 steps, for each of 2^64 seeds, cannot be run.",
"C19": "The count is over 2^64 consecutive calls for every seed.",
"C20": "Periods of 2^32-1 and 2^64-1 steps from every nonzero state; a test sees a short prefix of one orbit.",
"C21": "2^128-1 steps from every nonzero state; a transition with a slightly wrong shift has the same short-run behaviour and a much shorter period.",
"C22": "The state space has 2^64 (sfc16) to 2^256 (sfc64) states, and recurrence times of at least 2^64 steps cannot be observed.",
"C23": "A period of 2^64 steps on each of 2^63 streams; a wrong multiplier (not 1 mod 4) looks the same in any short run.",
"C24": "The claim is about every seed and the complete orbit of 2^31-2 steps; it rests on the multiplier being a primitive root, which no sample shows.",
"C25": "Ranges over all functions on words, and all seeds.",
"C26": "Ranges over all starts, increments and positions, including the wrap-around after up to 2^64 steps.",
"C27": "All data vectors and unbounded positions, including across the wrap of the 64-bit index.",
"C28": "An unbounded stream of an arbitrary source; a test inspects a finite prefix of one.",
"C29": "Unbounded streams over an arbitrary source.",
"C30": "All interleavings of any number of threads; a test observes one schedule per run and a race need not show up.",
"C31": "Ranges over all mixers/combiners (arbitrary functions) and unbounded positions.",
"C32": "Arbitrary sources and every n up to 2^64; repeatability is a claim about the iterator's hidden state.",
"C33": "All schedules of any number of workers: losing or doubling a job needs a particular interleaving which a test cannot force.",
"C34": "Absence of deadlock is universal over schedules; a test that finishes shows one schedule that does.",
"C35": "All interleavings, thread counts, setups and test functions.",
"C36": "Ranges over all callbacks (with state), all batteries and all bounds.",
"C37": "Quantifies over all histories of pass outcomes.",
"C38": "All histories of additions in every order, with arbitrary keys.",
"C39": "Injectivity of the printed key ranges over all sub-test names; the completeness part must hold for the catalogue as a whole.",
"C40": "All sample counts up to 2^64 and all caps; rounding of the exponents shows at isolated values only (e.g. 2^35).",
"C41": "All sizes, and every history of writes.",
"C42": "Ranges over all functions on words and all sources; a test fixes one mixer.",
"C43": "Ranges over all functions on words and all sources; a test fixes one mixer.",
"C44": "All sources and sample counts, including the counting modulo 2^64.",
"C45": "All data, all intervals and caps; boundary words of the interval (and of the conversion to double) are isolated points.",
"C46": "All data and all numbers of coupons.",
"C47": "An identity between a recurrence and a count of d^i sequences for all d and i; tests compare a few table values.",
"C48": "All data, divisors and group sizes; the identity with the negative binomial law is for all parameters.",
"C49": "All data and cutoffs; the deviation needs data beginning with the cutoff value.",
"C50": "All data and the 63 window sizes; saturation only shows after more than 255 equal windows.",
"C51": "2^(n*n) matrices for every n.",
"C52": "All data, all sizes, and arbitrary callbacks that may modify the scratch matrix.",
"C53": "Equality with a count over all 2^(n*n) matrices, for every n.",
"C54": "2^n sequences for every n, and minimality is a statement about all shorter registers.",
"C55": "Equality with a count over all 2^n bit strings, for every n.",
"C56": "All sources, bits and block sizes.",
"C57": "All data and bin counts up to 2^63, with rounding of the intermediate doubles.",
"C58": "All inputs (functions giving observed and expected counts), of all lengths.",
"C59": "An inequality (Gibbs) for all counts and expectations of all lengths.",
"C60": "A supremum over a continuum, for all data of all lengths in all orders.",
"C61": "Identities for all parameters; the claim about rounding is about every intermediate double.",
"C62": "Inequalities (Cauchy-Schwarz) and symmetries for all data of all lengths.",
"C63": "All data and all behaviours of an unstable sort.",
"C64": "All lists of all lengths and every threshold.",
"C65": "All strings, and termination of replace_all when the replacement contains the needle.",
"C66": "A continuum of p-values; the exact thresholds are single points.",
"C67": "All batteries, all orders of the results, all behaviours of the unstable sorts and all thread schedules.",
"C68": "All histories of calls with all texts.",
"C69": "All contents and all histories of writes, with all word sizes and limits.",
"C70": "All sizes and pixel functions, including non-termination, which no test can observe.",
"C71": "Ranges over all fitness functions, tie-breaks and thread schedules, for every number of bits.",
}
STATEMENT = {
"C39": "Every test type has exactly one definition, look-up by type returns the definition with this type, display names are distinct so that a printed test key identifies its key uniquely. The tests are, in the order in which batteries and tables list them, mean, uniform, runs, serial-avalanche, gap, coupon, divisibility, permutation, binary-rank, linear-complexity, sac, bic; a printed key is that name, followed for a sub-test by a colon and the name of the sub-test, and the text before the first colon is the name of the test.",
"C93": "For all data in [1e-16, 1-1e-16] the reported statistic is n times the integral of (F_n(u)-u)^2/(u(1-u)) over the unit interval, F_n being the empirical distribution function; it is positive, independent of the order of the data, and has n degrees of freedom; the p-value is never below 0.0006/n nor above 1. The p-value agrees with the published critical values: for n >= 2 values, at a statistic of at least 1.933, 2.492, 3.880 it is at most 0.10, 0.05, 0.01, and at a statistic of at most that number it is at least that level, up to 0.0002 + 0.02/n, and the same holds at 1.248 and 0.25 up to 0.0002 + 0.07/n; for two data sets of n values the larger statistic has the smaller p-value, up to 0.000001 + 0.14/n. Empty data has no result. The only failure is an int overflow of n*n, which needs more than 46340 values (and does happen there for a statistic of at most 0.1).",
"C15": "For combine mx1, mx2, mx3 of 32-bit words, fixing either argument leaves a bijection in the other. boost's combine is a bijection in its second argument for each fixed first argument, but not in its first: there are two first arguments that collide for the same second one.",
"C17": "Whenever the decoded shifts are below the width, a construction evaluates without a fault on every word (at 16 bits provided the multiplier is at most 32768) and is a bijection iff its multiplier is odd and each of its shifts is nonzero; at 16 bits every larger multiplier overflows int for some input as soon as the first shift is nonzero.",
"C22": "The sfc16/32/64 state transition is a bijection; because of the embedded counter a state recurs only after a multiple of 2^w steps, and every state does recur. Different seeds give generators that at no common position have the same state.",
"C25": "create_prng_from_mixer(m) yields m(seed), m(m(seed)), ...; when m is a bijection the sequence is purely periodic with a period common to all seeds, the seed itself is produced, and if two seeds ever share an output each occurs in the other's sequence.",
"C30": "For every interleaving of any number of consumers of the thread-safe stream, the m-th fetch overall gets index start+m, so no index is handed out twice within 2^64 calls and each consumer sees increasing positions; over one shared data vector the values in the order of the fetches are the data replayed cyclically.",
"C32": "Iterating ranged_stream(source,n) yields exactly the first n values of the source, as often as it is repeated; n=0 yields nothing; the iterator calls its copy of the source n+1 times. get_raw_by_ref returns the first n values and leaves the stream advanced by exactly n.",
"C40": "split_test runs its test once per listed size, in order, with sub-tests of at most the cap; the total is the request when it fits in one sub-test, more than the request exactly when the request is strictly between one and two caps, and otherwise falls short by less than one cap; a zero cap divides by zero. The slow and slower limits are absent or between 1024 and the request and monotone; for requests 2^(7k) the slow limit gives 2^(6k)-1 and the slower one 2^(5k). Each test of the catalogue gets exactly the documented budget. power_of_two(n) is the least k with n<=2^k.",
"C44": "serial_avalanche_count(n) consumes exactly 2n values and counts, for every a and b, the pairs of successive values with a and b one bits; the counts total n; no index is out of bounds for any data.",
"C45": "For every value sequence, interval and cap>=1 gap counting cuts the data after each hit and counts every segment once by its number of misses, longer ones in the last bin; misses after the last hit are dropped. Expected probabilities are the geometric distribution, non-negative with sum one; for an empty interval their computation never ends. In the lower half interval the hits are exactly the words with top bit 0 (for 64-bit words: those below 2^63-512). Cap 0 is an out-of-bounds access.",
"C47": "The expected probability for length i equals d!/d^i*S(i-1,d-1), the exact fraction of draw sequences completing the set at length i, whenever the Stirling number fits into 64 bits (always for the d=5 in use and for d<=7); up to the truncation point and together with the tail they sum to one. Beyond (e.g. d=8) the 64-bit Stirling numbers overflow.",
"C57": "The number of bins is a power of two, at least 2 and at least 2 n^0.4 (unless limited by the number of words), and below 2(2 n^0.4+1); bin_data_for_chi2 counts every value exactly once in the in-range bin given by its rescaled value. An empty sample and zero bins are undefined behaviour.",
"C58": "chi2_stats uses exactly the bins whose expectation is above the threshold, returns a result iff at least two exist, its degrees of freedom are that number minus one, its value is the sum of (o-e)^2/e over them, hence non-negative and zero exactly when all used bins match their expectation, and its p-value is the distribution function at that value.",
"C59": "g_test_stats uses the bins whose expectation reaches the threshold and whose observation is not (nearly) zero, returns a result iff there are at least two, and its value 2(sum o ln(o/e) - O ln(O/E)) is non-negative, zero exactly if observed and expected counts of the used bins are proportional (equal, for equal totals).",
"C60": "For all non-empty data in [0,1] kolmogorov_smirnov_stats' D is the supremum over x of |F_n(x)-x|, does not depend on the order of the data, and its p-value lies in [0,1], being 1 at D=0.",
"C61": "In exact arithmetic binomial_coefficient(n,k) is n choose k; flip_coin_pdf and binomial_pdf are non-negative and sum to one; binomial_cdf is the partial sum, except within 1e-10 of p=0 and p=1, where it returns the constants 1 and 0. With binary64 rounding the coefficient is still exact for all word sizes up to 32 bits, but not for 64 bits.",
"C62": "pearson_correlation_stats and kendall_correlation_stats compute the z-scores of Pearson's r (Fisher transform) and Kendall's tau-b; the coefficients lie in [-1,1] for all data, are symmetric in their arguments, and are 1 for identical non-constant data; too short or constant data give no result (or z-score 0); a shorter second vector is read out of bounds.",
"C65": "join puts the separator exactly between the non-empty elements; replace_all terminates and replaces every occurrence of one left-to-right scan without rescanning inserted text; escape_for_md puts one backslash before each listed character and nothing else, so the text can be recovered; contains decides the substring relation, contains_ignore_case the same up to ASCII case (but for the empty text).",
"C66": "The comparable p-value is p itself for z-scores and min(p,1-p) otherwise. A result passes iff it is above 1e-9, is suspicious iff at most 1e-5, remarkable iff at most 0.1; strength>=k exactly if it is at most 10^-k (k<=10); a smaller value never gets a weaker verdict; the text shown names class and strength.",
"C67": "The analysis of a battery has, per key, one entry with the least comparable p-value and one meta entry with the Kolmogorov-Smirnov statistic of the p-values, sorted from worst to best; the verdict is PASS exactly if no entry is at or below 1e-9 (inconclusive for an empty battery); counts and lists of failed and shown tests are exact; nothing depends on the order in which results were collected, on the thread schedule or on how the sorts break ties.",
"C68": "Whatever the sequence of calls, a table that has not run into undefined behaviour renders header and rows in order with every cell padded to two more than the longest cell of its column, nothing cut off or lost; the only undefined calls are ending a cell in a complete row and constructing a table with exactly one column.",
"C69": "After any non-empty history of writes and appends, read_binary with the same word type returns exactly the words written since the last truncating write (preceded by the words of the file before, if it held words and was only appended to); any file of fewer than 2^63 bytes is read as its full words (up to the limit), an incomplete last word being ignored; other files are untouched. A missing file is not diagnosed: reading throws without a limit and yields zeros with a small one.",
"C70": "write_ppm's header announces width, height and maximum 255, and a reader sees exactly these; the pixel function is called once per pixel row by row, and each byte of its result becomes a grey pixel, so that the data matches the header only for 8-bit words; if a dimension is not representable in the word type it never ends (which is the case for the 512 x 512 image of 8-bit words).",
"C71": "For every fitness function, every tie-break and every thread schedule: throughout the floating search each stored candidate of cardinality k has exactly k selected bits and its stored score is its fitness; the search never gets stuck, terminates within an explicit number of steps, and returns a vector with its own fitness such that no vector evaluated during the search - in particular not the seed - is better; without ties the result does not depend on the schedule.",
"C85": "For every source and every sample of 8192 to 2^64-1 bits the permutation test does not fault. The window size k, between 4 and 59, depends on the number of bits only; the bits of the first n values are cut into floor(n*w/k) windows, and the one sub test, named k, is Pearson's test of the numbers of occurrences (each counted up to 255) of the 2^k window values, all expected equally often (between 29 and 104 times), with 2^k-1 degrees of freedom. Samples of at most 46 bits are undefined behaviour.",
"C86": "For every source of words of 8 to 64 bits and every n>=1024 with n*w<2^64 the binary rank test does not fault. The matrix size m is a power of two, at least 2, depending on n and w only, and there are at least 954 matrices; sub test m takes the bits of the first n values in order, sub test m:bit(0) the lowest bits of as many values as there are bits; each always has a statistic, Pearson's test of the ranks over GF(2) against the exact fractions of all m x m bit matrices.",
"C87": "For every source and every n the linear complexity test does not fault. Below 8192 values it reports nothing; otherwise it cuts the lowest bits of the values into blocks of b=floor(n/1024) bits, and its one sub test b:bit(0), always with a statistic, is Pearson's test of the linear complexities of the first floor(n/b) blocks against the exact fractions of all bit strings of length b.",
}
QUANT = {
"C85": "every source, every sample count in the range",
"C86": "every source, every sample count in the range",
}
