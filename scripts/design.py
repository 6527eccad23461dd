import json
plan={
1:"Model/Bits: rol/ror on BitVec w with an explicit fault for out-of-range amounts; bit-level theorem by getLsbD.",
2:"Model/Bits; bit extensionality.",
3:"Model/Bits: the mask/shift code at each width, transcribed; bit i theorem by decision over the (finite) bit index after unfolding getLsbD - for every word.",
4:"Model/Bits: byte_swap transcribed; byteswap as list-of-bytes reversal.",
5:"Model/Bits, UB shift as fault.",
6:"Model/Windows: fold with callback state; equality to the flat bit list.",
7:"Model/Windows: the mutable block buffer and index are modelled literally; invariant relating buffer prefix to bits seen.",
8:"Model/Windows: v and c modelled literally with 64-bit v.",
9:"Model/BitVector: byte array model; refinement relation to List Bool; theorem over op lists.",
10:"Model/Streams; bijectivity from explicit inverses.", 11:"Model/Streams; the source list is exactly streams x transforms.",
12:"Model/Mixers; factor lemmas: xorshift-right invertible, odd multiply invertible; int promotion modelled in Int for 8/16 bit.",
13:"Model/Mixers; same factors + triangular T-function lemma for `(x+a)^(x<<k)`.", 14:"Model/Mixers; same factors + rotation factor `x^ror a^ror b` through the group algebra (Frobenius).",
15:"Model/Mixers; slot-wise bijectivity.", 16:"Model/Construct; reading constants through the BitVector model.", 17:"Model/Construct; factor lemmas of C13/C14, converse by explicit collisions.",
18:"Model/Prngs; closed form by induction, period by odd increments.", 19:"counting over ZMod 2^64.",
20:"Model/Prngs; linear map over GF(2), characteristic polynomial certificate evaluated by kernel computation, order of x modulo it.", 21:"same technique, 128-bit states.",
22:"Model/Prngs: explicit inverse, counter component.", 23:"Model/Prngs: LCG full period (Hull-Dobell for 2^64), output inverse.", 24:"Model/Prngs: orderOf 48271 in ZMod (2^31-1).",
25:"Model/Streams; iterate.",26:"Model/Streams; closed form by induction.",27:"Model/Streams; index modulo size.",28:"Model/Streams; bit by bit.",29:"Model/Streams; pointwise equations, injectivity.",30:"small-step model: shared counter; list of consumer ids is the schedule.",31:"Model/Streams; pointwise equations.",32:"Model/Streams: iterator protocol (begin/end/++/==) modelled literally.",
33:"Model/Jobs: small-step relation of the worker threads, queue mutex and collect mutex; invariant over reachable states.",34:"same; progress + variant.",35:"Model/Evaluate on top of Jobs.",36:"Model/Evaluate: the pass loop with the callback as state machine; powers up to 63, above is a shift fault.",37:"Model/Evaluate; same loop with the command's callback.",38:"Model/Results: association list keyed by test; laws of add/find.",39:"Model/Results: the catalogue as data; decision over the finite key type.",40:"Model/Budget: unsigned 64-bit arithmetic, double multiplications exact.",41:"Model/BinaryRank: row-major bytes; get after set.",
42:"Model/CountStats: histogram equals the count of pairs (word, flipped bit) with given Hamming distance.",43:"Model/CountStats.",44:"Model/CountStats; histogram against positions of the stream.",45:"Model/CountStats; segments spec in Spec/Segments; rounding of the lower-half test through Model/Float.",46:"Model/CountStats; Spec/Segments.",47:"exact rational model of the formula; counting functions.",48:"Model/CountStats; counting words divisible by d in every residue block.",49:"Model/CountStats; maximal runs as a list function.",50:"Model/CountStats.",
51:"Model/BinaryRank: literal elimination (no row swaps: the first one of each row is the pivot); Matrix.rank over ZMod 2.",52:"Model/BinaryRank; position of every matrix bit in the stream's bit list.",53:"exact rational model; count of matrices of rank r.",54:"Model/LinearComplexity: literal loop; Massey's theorem by invariant.",55:"counting by induction with Berlekamp-Massey.",56:"Model/LinearComplexity.",
57:"Model/Hist, RealStats: bins as folds; totals by induction.",58:"Model/RealStats over ℝ.",59:"Model/RealStats over ℝ; Gibbs inequality.",60:"Model/RealStats; supremum over ℝ of |F_n - F| as IsLUB.",61:"Model/RealStats, plus Model/Float for the double version.",62:"Model/RealStats; Cauchy-Schwarz.",63:"Model/RealStats; argsort as relation; counterexample to the textbook coefficient.",64:"Model/RealStats over an ordered field; invariant of the merging loop.",65:"Model/Text over List Char.",66:"Model/Analysis over ℝ.",67:"Model/Analysis; sort relation; maximum over sub-results.",68:"Model/Files.",69:"Model/Files: byte-list file.",70:"Model/Files: the pixel loop with fuel.",71:"Model/Sffs: nondeterministic minimiser as relation.",72:"Model/TestSetups: the rejection loop with fuel; Nodup invariant.",73:"Model/TestSetups.",74:"Model/TestSetups.",75:"Model/Float: round-to-nearest-even to 53 bits over rationals.",
76:"Model/RealStats: exact Gaussian cdf (Mathlib's gaussianReal); symmetry and limits.",
77:"Model/TestSetups; the list of sources is computed exactly, their first values pointwise.",
78:"Model/TestSuite; the z-score as closed formula of the stream's first n values.",
79:"Model/TestSuite, Spec/Pearson: Pearson's sum over equal ranges of words.",
80:"Model/TestSuite; against the run counts of C49.",
81:"Model/TestSuite; cell = (previous bit row, weight); Spec/Pearson.",
82:"Model/TestSuite; Spec/Segments + Spec/Pearson with dyadic probabilities.",
83:"Model/TestSuite; same with the coupon probabilities of C47.",
84:"Model/TestSuite; same with the divisibility law.",
85:"Model/TestSuite; window size formula, index arithmetic, saturation of the 8-bit counters.",
86:"Model/TestSuite; ranks of C51 and probabilities of C53.",
87:"Model/TestSuite; C54/C55.",
88:"Model/TestSuite; SAC and BIC statistics as closed formulas; affine mixers.",
89:"Model/Suite; every test of the catalogue composed: what is read, when a fault can occur, what is reported.",
90:"Model/Gamma: both loops (series and Lentz continued fraction) with the iteration limit; convergence, error bound and stop test proved over ℝ against the chi-square law (Spec/ChiSquareLaw, a measure).",
91:"Model/Gamma: log_gamma against Real.Gamma with an explicit error bound.",
92:"Model/Combine; -2 sum log p has the chi-square law under uniform p (Spec/UniformCube: Lebesgue volume).",
93:"Model/Combine; the statistic equals the integral definition in Spec/AndersonDarling; the p-values are compared with the published critical values there (Props/AndersonLevels: monotone branches, bounds of the correction polynomials, Taylor bounds of exp at the critical values).",
94:"Model/Combine over ℝ.",95:"Model/Combine over ℝ and BitVec.",
96:"Model/Commands: file system and batteries; final file contents for every run.",
97:"Model/Commands: lines printed for every setup; which tests are flagged.",
98:"Model/Commands: the table as function of batteries.",
99:"Model/Commands: ranking and file operations; argument dispatch, exit code.",
100:"Spec/Average: mean of the statistic over all inputs, computed by linearity and counting.",
101:"Same; first two moments of the sum of uniform words.",
102:"Same; distances of consecutive words.",
103:"Same, averaging over all mixers (functions).",
104:"Same, averaging over all arrangements of a above and b below.",
105:"Model/Score: get_score over the battery and its analysis; run of evaluate_multi_pass.",
106:"Model/Score over the search machine of Model/Sffs.",
107:"Lemmas/Tails bounds the chi-square and normal tails (Chernoff); Props/Power feeds the closed forms of C79/C89 into them and through the battery (C36, C96).",
108:"Props/PowerLinear: blocks have complexity at most L, so all used cells of C87 are empty; recurrences of the generators by Cayley-Hamilton on the GF(2) state; report by C96.",
109:"Props/PowerRank: an exhibited kernel vector keeps every matrix of C86 below full rank, so the full-rank cell is empty and Pearson rejects; battery and report as C108.",
110:"Props/PowerBic: each predictable pair contributes exactly n to the statistic of C88; predictable pairs of shift-multiply-shift mixers from odd multiplication being triangular; report as C108.",
111:"Lemmas/Mills (Mills bound of the normal tail), Props/PowerRuns: the z-score of C80 against 6.2; the streams of the catalogue are evaluated by the kernel; report as C110, with the names of the failed tests.",
112:"Props/SffsLocal: an invariant of the small-step search of C71: every stored vector below the current cardinality has had all its neighbours evaluated, every one above it its smaller neighbours; at the end the current cardinality is the largest.",
113:"Lemmas/KolmogorovSeries: alternating series, convexity of the tail, Poisson summation (second form of Kolmogorov's law) and rational bounds of exp; Props/MetaTest: the loop is the truncated series, thresholds, and the range of D for few p-values.",
114:"Model/SpecialFunctions (partial_fixpoint for the recursion, the Lentz loop over any ordered field, rounded doubles for the recursion guard), Props/SpecialFunctions: reflection of the guard, monotone rounding, kernel evaluation of the loop over the rationals, C91 for the gamma factors. Not proved: accuracy of the continued fraction in general.",
115:"Props/SeriesFunctions: Euler-Maclaurin bounds of log(1+1/n) by derivatives, Mathlib's Euler-Mascheroni constant; the tail of the theta series (C113).",
116:"Model/HardwarePrngs (the intrinsics after FIPS 197 and Intel's description; RDRAND as an arbitrary sequence of outcomes), Props/HardwarePrngs: S-box inverted over all 256 bytes, MixColumns inverted algebraically, injectivity composed; counting by bijections.",
117:"Model/Twister (the engine as the standard defines it), Props/Twister: windows of 624 words determine the sequence in both directions; linear map on the 19937 bits that matter, Cayley-Hamilton (C108).",
118:"Model/Catalogue (all get_mixers, get_prngs, get_combiners), Props/Catalogue: names by evaluation; periods from C18-C24, C117; the report from C96 with the rejections of C107, C108, C111, C119 on one common list of lines.",
119:"Props/PowerEven: exact counts per bin, so chi-square is 0 and the p-value 1 (C90); C96 for the report.",
120:"Model/Rounded: the statistics with every operation rounded (Model/Float). Props/Rounding: a relative-error calculus (Lemmas/Rounding) over the loops; the comparison with the exact model of C58-C60; Minkowski for perturbed expectations.",
121:"Model/ToolRun (ppm_command, build_trng, export_rdrand); Props/ToolRun: C70 for the image data, a block index lemma for the position of each byte; C69 for the data files.",
122:"Model/ToolRun (testExec in toolMain); Props/ToolRun: C118_report_8..64 composed, paths distinct by injectivity of decimal notation.",
123:"Props/FalseAlarms: exponential moments of a word (product of hyperbolic cosines over its bits), Markov; Lemmas/MillsLower: lower bounds of normal tails; union over the powers.",
124:"Lemmas/RunsTail: the centred signs and the products of neighbours are sub-Gaussian (Hoeffding lemma, induction over the words); Lemmas/RunsReal: the z-score in terms of both; Props/FalseAlarmsRuns: Markov, union.",
125:"Model/Score searchLastEvaluation; C106 gives the mixer and its score, C37 the single printed battery, C35 (schedule independence) that both evaluations stop at the same size.",
126:"Model/Commands inspectTests (C97); Lemmas/CounterRuns counts the runs in one bit of a counter exactly enough for the z-score; C80, C88, C110, Gaussian tail bounds (Lemmas/Mills, MillsLower), C113 for the meta analysis of one value, C35 for the schedules.",
127:"Model/Console formatDouble (printf %g on exact numbers), Spec/Decimal (reading a decimal text back); Lemmas/Numbers.",128:"Model/Console reportText and drawHistogram; C66, C67, C68, C127 for the parts; binary64 rounding (Lemmas/Float) for the bars.",
129:"C126 machinery (pass_of_none); Lemmas/Patterns counts lone misses and pairs in the segments of C82/C84; the rank of matrices that satisfy a recurrence (C86) and the constant blocks of a high counter bit (C87).",
130:"Model/SearchText (texts and the calls of the callback, as a relation over the steps of Model/Sffs), Spec/MixerCode (an interpreter of the printed statements); invariant over the reports.",
131:"Model/ToolText: the texts and the calls of print_battery_result around the models of the commands; C37, C96, C97, C99 and C128 for what they say.",
132:"The sample sizes of the bins are counted over the cube of free bits of a view (at most two bits per carry); the lower tail of the chi-square law by a Chernoff bound gives the p-value; constants by C107, 8 and 16-bit counters by C119.",
133:"C81 gives the groups; greedy merging leaves the middle cells of the middle row alone, so an empty one contributes its whole expectation; rotations and reversals keep the number of set bits.",
134:"C85 gives the windows; a periodic source has at most one window value per position of the period, so half of the cells are empty; the windows that see only high bits of a counter are counted residue by residue (kernel computation over the rotations).",
135:"C83 gives the segments; Pearson's statistic is at least the sum of E - 2O over any cells, so bins that stay (nearly) empty reject. The leading bits of a value bound its coupon (rounding is monotone); the views are then periodic or slow patterns of a few leading bits, settled by arithmetic and by kernel computation over residues.",
136:"The twelve self-check theorems (C126, C129, C132-C135) put together through C97 and C131; the texts are compared by kernel computation.",
137:"Model/DataCache: the two function-local statics, g_config and the files as a state, histories as lists of events. Invariant: a cache holds the contents at the first successful request (Spec.firstSeen, computed from the events alone).",
138:"Model/SpeedCommand; the callback and the passes as in C98, then C98_table for the single row; the mean column from its sample limit.",
139:"Model/DataBuild: loop of export_rdrand as the first 2^p values of a stream, enumeration as a list of entries; reading back with C69.",
140:"Model/Threads: the 32-bit thread count of run_jobs; invariant of the small-step model of C33/C34 for the number of workers, an explicit schedule for the parallelism, counting of create_test_jobs over the setups of C96.",
141:"Model/Vectors: the loops over streams and vectors, accumulate with its unsigned long long accumulator in binary64; inductions.",
142:"Model/DataStreams on top of the cache of C137 and the circular stream of C27; composition, uniqueness of the words of given bytes.",
143:"Model/Cells: the overloads of app as texts (std::to_string in decimal, doubles as in C127); injectivity by splitting the text at newlines, recovering the widths from the header line, stripping the padding.",
144:"No new model: from the characterisations of the twelve tests by their values (C42, C43, C81, C86, C87) and take; then through create_test_jobs to EvaluateOutcome and PossibleRun.",
145:"No new model: loops compared step by step, or the characterisations C50, C53, C78, C81, C87.",
146:"Props/Reported, Props/SerialRows (table of the serial avalanche rows: the greedy groups counted by a fold, monotone in the number of pairs); the budgets as floors of real powers, the exact results of C78-C88 and the multiset of results of C35.",
147:"Spec/Published gives the algorithms as short programs whose meaning is arithmetic on natural numbers; Props/Published proves, by evaluating them on bit vectors and an induction on the position, that the models of Model/Mixers, Model/Prngs and Model/Twister compute them. The specification was written from the publications, as far as known, and compared with the code; known answers are checked beside it.",
148:"No new model: the loop of generate_seeds when every word is new gives a permutation of the pool of C72; the largest words of the pool are computed by the kernel; two counters meet within n steps exactly if their difference times the inverse of the increment is below n. For pcg, xorshift and minstd_rand the distances are discrete logarithms, checked by jumping; the overlaps of xorshift and minstd_rand are jumps too (a power of the polynomial of the generator, a power modulo 2147483647).",
}
ps=[json.loads(l) for l in open('/verif/properties.jsonl')]
out=open('/verif/scripts/design_head.md').read()
for p in ps:
    n=int(p['id'][1:])
    out+="| %s | %s | %s |\n"%(p['id'],p['title'],plan.get(n,""))
out+=open('/verif/scripts/design_tail.md').read()
open('/verif/DESIGN.md','w').write(out)
