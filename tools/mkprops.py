#!/usr/bin/env python3
"""Writes /verif/properties.jsonl (one property per line)."""
import json, os
P = []
def p(title, statement, quantifier, why, *anchors):
    P.append(dict(id=f"C{len(P)+1:02d}", title=title, statement=statement,
                  quantifier=quantifier, why_tests_cant=why, anchors=list(anchors)))

# ---------------------------------------------------------------- ISS kernels
p("Reals ISS is the strict iterated sum",
  "ISS([w]).transform(X) with the default semiring, for a SimpleWord w with p extended letters, returns at time t exactly the sum over all i_1<...<i_p<=t of the product of the letter monomials X[.,i_1],...,X[.,i_p].",
  "all words (any number of letters, dimensions, negative exponents on non-zero data), all series, all lengths, all time steps",
  "tests compare a handful of short words on small arrays; the claim is a combinatorial identity over all word lengths and series lengths",
  "fruits/iss/semiring.py:_total_weighted_reals_single", "fruits/iss/semiring.py:Reals", "fruits/iss/semiring.py:Semiring.iterated_sums")
p("Arctic ISS is the max-plus iterated sum",
  "With semiring=Arctic() the value at time t is the maximum over all i_1<=...<=i_p<=t of the sum of the letter values, and that maximum is attained.",
  "all words, all series, all time steps", "a maximum over exponentially many index tuples; tests enumerate at most three nested loops on random data",
  "fruits/iss/semiring.py:_total_weighted_arctic_single", "fruits/iss/semiring.py:Arctic")
p("Bayesian ISS is the max-times iterated sum",
  "With semiring=Bayesian() on non-negative data the value at time t is the maximum over all i_1<=...<=i_p<=t of the product of the letter monomials, and it is attained.",
  "all words, all non-negative series, all time steps", "maximum over all index tuples", 
  "fruits/iss/semiring.py:_total_weighted_bayesian_single", "fruits/iss/semiring.py:Bayesian")
p("Weighted Reals ISS",
  "With a Weighting whose lookup is g, each summand of the iterated sum is multiplied by prod_j exp(alpha_j*(g(i_j)-g(i_{j+1}))), and with total=True additionally by exp(alpha_p*(g(i_p)-g(t))).",
  "all words, alphas, lookups, series, time steps, total in {True, False}", "the code never forms the pairwise factors: it multiplies by exp(+) and exp(-) at different loop stages, so the claim is an identity over all tuples",
  "fruits/iss/semiring.py:_reals_single", "fruits/iss/semiring.py:_total_weighted_reals_single", "fruits/iss/weighting.py:Weighting")
p("Weighted Arctic ISS",
  "With a Weighting in the Arctic semiring each candidate sum is increased by sum_j alpha_j*(g(i_j)-g(i_{j+1})) (plus alpha_p*(g(i_p)-g(t)) when total) and the value at t is the attained maximum.",
  "all words, alphas, lookups, series, time steps, total in {True, False}", "maximum over all tuples with telescoping penalties",
  "fruits/iss/semiring.py:_arctic_single", "fruits/iss/semiring.py:_total_weighted_arctic_single")
p("Weighted Bayesian ISS",
  "With a Weighting in the Bayesian semiring on non-negative data each candidate product is multiplied by prod_j exp(alpha_j*(g(i_j)-g(i_{j+1}))) (and exp(alpha_p*(g(i_p)-g(t))) when total) and the value at t is the attained maximum.",
  "all words, alphas, lookups, non-negative series, time steps, total in {True, False}", "maximum over all tuples with telescoping factors",
  "fruits/iss/semiring.py:_bayesian_single", "fruits/iss/semiring.py:_total_weighted_bayesian_single")
p("Extended rows are the prefixes",
  "When a semiring is asked for the last m iterated sums of a word with p>=m extended letters it returns m rows and row r is exactly the result for the prefix of length p-m+r+1 taken as a word of its own (with the corresponding prefix of alpha).",
  "all words, all m<=p, all series, all three semirings, weighted and unweighted", "needs all (m,p,r) combinations; off-by-one errors hide at the ends",
  "fruits/iss/semiring.py:_reals_single", "fruits/iss/semiring.py:_arctic_single", "fruits/iss/semiring.py:_bayesian_single")
p("The plain and the total-weighted kernels agree without weighting",
  "Without a weighting the library silently uses the 'total' kernel with zero weights; the other kernel would give the same values.",
  "all words, series, extended depths, all three semirings", "two different loop bodies must coincide on every input",
  "fruits/iss/semiring.py:Semiring.iterated_sums", "fruits/iss/semiring.py:_reals_single", "fruits/iss/semiring.py:_total_weighted_reals_single")
p("Words of DIM letters equal simple words",
  "A general Word whose letters are DIM(d) gives the same iterated sums as the SimpleWord with the same letters, in every semiring.",
  "all words with non-negative exponents, all series, all semirings", "two independent code paths (numba kernels and the generic Python loop) must agree everywhere",
  "fruits/iss/semiring.py:Semiring._iterated_sum", "fruits/iss/semiring.py:Arctic._iterated_sum", "fruits/iss/words/creation.py:replace_letters")
p("Causality of the ISS",
  "The iterated sum at time t depends only on X up to time t: transforming a truncated series gives the truncated result (no weighting).",
  "all series, truncation points, words and semirings", "quantifies over all suffixes",
  "fruits/iss/semiring.py:Semiring.iterated_sums")
p("Quasi-shuffle identity",
  "The product of two Reals iterated sums equals the sum of the iterated sums over the quasi-shuffle of the two words, at every time step.",
  "all pairs of words, all series, all time steps", "the number of terms grows like Delannoy numbers; only a proof covers all words",
  "fruits/iss/semiring.py:_total_weighted_reals_single")
p("Time-warping invariance of INC -> ISS -> END",
  "Repeating time points of a series (stuttering) does not change the final value of the Reals iterated sums of its increments.",
  "all series, all stutterings, all words whose extended letters have positive exponents", "quantifies over all ways to repeat samples",
  "fruits/preparation/transform.py:INC", "fruits/iss/semiring.py:Reals", "fruits/sieving/segment.py:END", "experiments/fruit_twi.py")
p("Homogeneity of the ISS",
  "Scaling the series by c scales the Reals iterated sum of a word of weight w by c**w, and shifts nothing else; in the Arctic semiring scaling by c>=0 scales the value by c.",
  "all words, series, scalars", "universal in word, scalar and series", "fruits/iss/semiring.py:Reals", "fruits/iss/semiring.py:Arctic")
p("Running semirings are monotone in time",
  "Without weighting, Arctic and Bayesian iterated sums never decrease over time, and Reals iterated sums of even words (all exponents even) never decrease.",
  "all series, words, time steps", "universal over series", "fruits/iss/semiring.py:Arctic", "fruits/iss/semiring.py:Bayesian", "fruits/iss/semiring.py:Reals")
p("Arctic argmax positions are a maximising tuple",
  "With Arctic(argmax=True) and no weighting, the final column of the position rows belonging to the prefix of length k is an index tuple i_1<=...<=i_k that attains the returned maximum at the last time step.",
  "all words without empty letters, all series", "positions are reconstructed by a back-translation through several arrays; only a proof covers all ties and all lengths",
  "fruits/iss/semiring.py:_arctic_argmax_single")
# ---------------------------------------------------------------- ISS driver
p("Batch size does not matter",
  "Concatenating the arrays yielded by ISS.batch_transform(X, b) gives the array of ISS.transform(X) for every b with 1<=b<=len(words), and there are ceil(len(words)/b) batches.",
  "all word lists, batch sizes, modes, semirings, series", "every batch size and remainder", "fruits/iss/iss.py:_calculate_ISS", "fruits/iss/iss.py:ISS.batch_transform")
p("n_iterated_sums is the number of returned arrays",
  "ISS.n_iterated_sums() equals the first axis of ISS.transform(X), in SINGLE and EXTENDED mode, and for Arctic(argmax=True) in EXTENDED mode.",
  "all word lists, modes, semirings, inputs", "all word lists", "fruits/iss/iss.py:ISS.n_iterated_sums", "fruits/iss/cache.py:CachePlan.n_iterated_sums")
p("EXTENDED mode yields every distinct prefix exactly once",
  "In EXTENDED mode the labels of the returned iterated sums are exactly the distinct non-empty prefixes of the given words, each exactly once; the cache plan's get_word_index(i) is the first word beginning with the i-th label and raises IndexError exactly if there is none.",
  "all lists of words (repeated words, words that are prefixes of other words, any order)", "the plan is a string prefix search with a 'speed up' start index; all orders of all word lists matter",
  "fruits/iss/cache.py:CachePlan", "fruits/iss/iss.py:ISS")
p("EXTENDED mode equals SINGLE mode on the prefixes",
  "The array returned in EXTENDED mode is the array SINGLE mode returns for the list of prefix words named by the labels, in the same order.",
  "all lists of simple words, all series, unweighted, all semirings", "relates plan, kernel row layout and labels for all inputs", "fruits/iss/iss.py:_calculate_ISS", "fruits/iss/cache.py:CachePlan.get_word_string")
p("ISS labels name the row",
  "ISS.label(i) is the string of the word (SINGLE) or prefix (EXTENDED) whose iterated sum is row i of the transform; for i >= n_iterated_sums() it raises an IndexError.",
  "all word lists, all indices", "index arithmetic over all plans", "fruits/iss/iss.py:ISS._label", "fruits/iss/cache.py:CachePlan.get_word_string")
p("Weighted EXTENDED mode respects each word's alpha",
  "With a weighting, the EXTENDED results for a word's prefixes use that word's alpha, also when another word with the same string but a different alpha is given.",
  "all lists of words with alphas", "sharing of prefixes ignores alpha; a history/aliasing question", "fruits/iss/cache.py:CachePlan._create_plan", "fruits/iss/words/word.py:Word.alpha")
p("Series are processed independently",
  "Row j of every iterated sum depends only on series j of X: transform(X)[:, j] = transform(X[j:j+1])[:, 0], for any permutation or selection of series.",
  "all datasets, words, selections of series", "universal over datasets", "fruits/iss/iss.py:ISS", "fruits/iss/semiring.py:Reals._iterated_sum_fast")
# ---------------------------------------------------------------- words
p("SimpleWord accepts exactly its grammar",
  "SimpleWord(s) succeeds only for strings of the documented form, and on every such string with non-zero letters it stores for each extended letter the signed number of occurrences of each dimension, padded to the highest dimension.",
  "all strings", "infinitely many strings; the parser is a hand-written index loop", "fruits/iss/words/word.py:SimpleWord.multiply")
p("SimpleWord equality is permutation invariance",
  "Two SimpleWords with positive letters are equal iff they have the same number of extended letters, the same highest dimension and letter-wise the same multiset of dimensions; in particular permuting letters inside brackets never matters.",
  "all words, all permutations", "all permutations of all words", "fruits/iss/words/word.py:SimpleWord.__eq__")
p("Multiplying words is concatenation",
  "For strings s,t with non-zero letters, SimpleWord(s) multiplied by t equals SimpleWord(s+t), so multiplication is associative on strings.",
  "all pairs of strings in the grammar without letter 0", "padding depends on the history of max dimensions", "fruits/iss/words/word.py:SimpleWord.multiply")
p("of_weight lists every word of the weight exactly once",
  "of_weight(w, dim) contains, up to order, every word of weight w over dimensions 1..dim exactly once.",
  "all w>=1, all dim>=1, any iteration order of Python sets", "enumeration completeness for all w and dim; tests count a few values", "fruits/iss/words/creation.py:of_weight", "fruits/iss/words/creation.py:_partitions_of")
p("of_weight counts",
  "len(of_weight(w, 1)) = 2**(w-1) for all w>=1.", "all w>=1", "tests check w<7", "fruits/iss/words/creation.py:of_weight")
p("alternate_sign alternates the signs",
  "alternate_sign(words) returns for every simple word with positive letters two words: the letters with even position negated resp. the letters with odd position negated.",
  "all words, all dimensions", "string building for arbitrary dimensions", "fruits/iss/words/creation.py:alternate_sign")
p("Word strings round-trip",
  "str(Word(str(w))) = str(w) and Word(str(w)) has the same letters as w, for every word built from registered letters whose names contain no brackets.",
  "all words, all registered letter names, all dimensions", "all strings", "fruits/iss/words/word.py:Word", "fruits/iss/words/letters.py:ExtendedLetter")
p("Letter registry is append-only",
  "Registering a letter under a free name makes exactly this name available; registering a used name raises and changes nothing; no history of registrations changes what an already registered name refers to.",
  "all histories of registrations", "quantifies over histories", "fruits/iss/words/letters.py:_log", "fruits/iss/words/letters.py:_get", "fruits/iss/words/letters.py:letter")
p("Copying a word preserves it",
  "Word.copy()/SimpleWord.copy() gives a word with the same letters, string and alpha, independent of the original.",
  "all words and all later operations on copy or original", "aliasing over histories", "fruits/iss/words/word.py:SimpleWord.copy", "fruits/iss/words/word.py:Word.copy")
p("alpha always matches the word length",
  "For every sequence of multiply and alpha assignments, word.alpha has exactly len(word) entries.",
  "all histories of multiply / alpha assignments", "history property", "fruits/iss/words/word.py:Word.alpha", "fruits/iss/words/word.py:SimpleWord.multiply")
p("Iterating a word or fruit visits every element",
  "A for-loop over a Word, ExtendedLetter or Fruit visits all elements in order, also when loops over the same object are nested or a loop was abandoned before.",
  "all objects, all interleavings of iterators", "interleaving of iterators over shared state", "fruits/iss/words/word.py:Word.__next__", "fruits/iss/words/letters.py:ExtendedLetter.__next__", "fruits/fruit.py:Fruit.__next__")
p("replace_letters keeps the shape of the word",
  "replace_letters(w, gen) yields a word with the same number of extended letters and, per extended letter, the same dimensions, using the generated names in order and DIM after the generator is exhausted.",
  "all simple words, all generators", "all words", "fruits/iss/words/creation.py:replace_letters")
# ---------------------------------------------------------------- caches
p("The shared cache is transparent",
  "SharedSeedCache(X).get(type, key) returns the directly computed value for X for every history of previous get calls, whatever X arguments they were given; unknown keys raise.",
  "all histories of get calls", "history property", "fruits/cache.py:SharedSeedCache.get")
p("A cache without input is fixed by the first request",
  "For SharedSeedCache() the value of a key is computed from the X of the first successful request for that key and never changes afterwards.",
  "all histories of get calls", "history property", "fruits/cache.py:SharedSeedCache.get")
p("Coquantiles are monotone cut points",
  "The q-coquantile is between 1 and the series length for 0<=q<=1, monotone in q, equals the length for q=1, and index i lies before it iff the normed variation up to i is at most q times the total.",
  "all series, all q", "universal over reals and series", "fruits/cache.py:_coquantile", "fruits/cache.py:_L1_sum", "fruits/cache.py:_L2_sum")
p("Stand-alone seeds leave no cache behind",
  "seed.fit / seed.transform called on a seed without a cache leave it without a cache, also when the call raises; so later calls never see data of earlier ones.",
  "all histories of calls, including failing ones", "exception paths over histories", "fruits/seed.py:Seed.fit", "fruits/seed.py:Seed.transform")
# ---------------------------------------------------------------- preparateurs
p("INC computes shifted increments",
  "INC(shift=s, depth=1) returns 0 (or the original value without zero padding) for t<s and x_t-x_{t-s} for t>=s; depth=d applies this d times.",
  "all datasets, s>=1, d>=1", "all shifts including s>=length", "fruits/preparation/transform.py:INC", "fruits/cache.py:_increments")
p("Increments and cumulative sums are inverse",
  "cumsum(INC(zero_padding=False)(x)) = x and cumsum(INC()(x)) = x - x_0.", "all series", "all lengths", "fruits/preparation/transform.py:INC", "fruits/sieving/wrapper.py:INT", "fruits/sieving/increment.py:IncrementSieve._pre_transform")
p("STD standardizes",
  "STD() returns series with mean zero; with std_eps=0 and non-constant data their variance is one; constant series become zero (eps>0).",
  "all series", "universal over series", "fruits/preparation/transform.py:STD")
p("NRM maps to [0,1]",
  "NRM() maps every dimension into [0,1] attaining 0 and 1 when it is not constant, maps constant dimensions to 0, is idempotent and invariant under positive affine changes of a dimension.",
  "all datasets, both scale_dim settings", "universal over datasets", "fruits/preparation/transform.py:NRM")
p("MAV is the trailing mean",
  "After fit, MAV(w) returns at t>=w-1 the mean of the last w values and 0 before; MAV(-1) returns the mean over dimensions.",
  "all datasets, widths", "all widths and lengths", "fruits/preparation/transform.py:MAV")
p("LAG is the lead-lag transform",
  "LAG() of a series of length n>=1 has length 2n-1 and twice the dimensions, with lead/lag coordinates (x_{ceil(t/2)}, x_{floor(t/2)}).",
  "all series", "all lengths and dimensions", "fruits/preparation/transform.py:LAG")
p("CTS shifts left and repeats the last value",
  "CTS(s) with s>=1 returns y_t = x_{min(t+s, n-1)}; with pseudo_shift it zeroes exactly the first s values.",
  "all series, s>=1 (also s>=n)", "all shifts", "fruits/preparation/transform.py:CTS")
p("QTC clips at the fitted quantile",
  "After fit, QTC(q) without bound returns min(x, quantile) (max if lower), is idempotent and monotone; with bound b exactly the cropped values become b.",
  "all datasets, quantiles, bounds", "universal over data", "fruits/preparation/transform.py:QTC")
p("DIL zeroes disjoint strips and nothing else",
  "After a successful fit, DIL sets exactly the values inside nclusters pairwise disjoint, non-empty strips inside the series to zero and leaves every other value unchanged.",
  "all random draws, all series", "all outcomes of the random generator", "fruits/preparation/filter.py:DIL")
p("WIN keeps a window",
  "WIN(a,b) with 0<=a<=1 returns the series unchanged on [coq(a)-1, coq(b)) and zero elsewhere; the windows of consecutive quantiles cover the series from coq of the first on.",
  "all datasets, a<=b", "universal over data", "fruits/preparation/filter.py:WIN")
p("DOT keeps every n-th point",
  "After fit, DOT(n, first) keeps x_t iff t>=first and (t-first) is a multiple of n, zero otherwise; the fitted n and first are valid indices for every length; DOT is idempotent.",
  "all series, all n>=1, first", "all lengths", "fruits/preparation/filter.py:DOT")
p("PDD drops the requested proportion",
  "After fit, PDD(density, proportion) sets values to zero and leaves the others unchanged, and for long enough series it drops a positive number of values.",
  "all densities, proportions and lengths", "integer rounding for all lengths", "fruits/preparation/filter.py:PDD")
p("DIM and NEW keep the other dimensions",
  "NEW(p) returns the original dimensions followed by the transformed ones; DIM(p, dims) returns the untouched dimensions in their order followed by the transformed selected ones.",
  "all datasets, wrapped preparateurs and dimension selections", "parametric in the wrapped preparateur", "fruits/preparation/wrapper.py:DIM", "fruits/preparation/wrapper.py:NEW")
p("RIN subtracts a weighted window of the same dimension",
  "After fit with out_dim=in_dim, each output dimension of RIN is x_i - (k_w*x_{i-1}+...+k_1*x_{i-w}) for a single input dimension x.",
  "all draws of the dimension permutation and kernels, all datasets", "random permutation hides index mix-ups when it is the identity", "fruits/preparation/transform.py:RIN")
p("RIN kernels sum to one",
  "With force_sum_one the drawn kernel of each dimension sums to one and stays inside [-1,1]; without it the kernel has mean zero.",
  "all random draws", "all outcomes of the random generator", "fruits/preparation/transform.py:RIN._fit")
p("Random projections use every dimension exactly once",
  "RIN(out_dim=k) and JLD(k, distribute=True) split the input dimensions into k groups whose sizes differ by at most one and use every input dimension in exactly one group.",
  "all dimension numbers and k", "all divisions with remainder", "fruits/preparation/transform.py:JLD._fit", "fruits/preparation/transform.py:RIN._fit")
p("JLD is linear and acts per time step",
  "Without bias JLD is a linear map applied to every time step separately.",
  "all datasets, kernels", "universal over data", "fruits/preparation/transform.py:JLD._backend")
p("FFN acts per time step and ignores offsets when centering",
  "FFN applies the same two-layer network to each (centered) time step; with center=True adding a constant to a dimension changes nothing.",
  "all datasets, weights", "universal over data", "fruits/preparation/transform.py:FFN")
p("RPE is a rotation",
  "RPE preserves the Euclidean norm of every time step and needs exactly two dimensions, otherwise it raises.",
  "all datasets, frequencies", "universal over data", "fruits/preparation/transform.py:RPE")
p("Preparateurs treat series independently",
  "After fitting, every built-in preparateur transforms each series of the dataset independently of the other series.",
  "all datasets, all fitted states, all built-in preparateurs", "universal over datasets and states", "fruits/preparation/transform.py", "fruits/preparation/filter.py", "fruits/preparation/wrapper.py")
# ---------------------------------------------------------------- sieves
p("Segments partition the series",
  "For integer cuts in 0..n the sorted cut points split the series into consecutive disjoint segments covering exactly the first max(cut) values; -1 means the end.",
  "all cut sequences, all lengths", "all orders and duplicates", "fruits/sieving/segment.py:SegmentSieve._get_transformed_cuts")
p("Sieves return nfeatures() columns",
  "Every sieve's transform returns exactly nfeatures() columns per series.",
  "all sieves, cut and q sequences, data", "all configurations", "fruits/sieving/segment.py:SegmentSieve._nfeatures", "fruits/sieving/segment.py:END", "fruits/sieving/implicit.py:PPV")
p("MAX and MIN bound their segment",
  "MAX/MIN with the default q return for every non-empty segment the attained maximum/minimum and 0 for an empty one.",
  "all series and cuts", "universal over data", "fruits/sieving/segment.py:MAX", "fruits/sieving/segment.py:MIN")
p("END returns the last value of each segment",
  "END(cut) returns x[c-1] for every cut point c with 1<=c<=n, in sorted order of the cuts.",
  "all series and cuts", "universal", "fruits/sieving/segment.py:END")
p("CUR, AVG and STD compute what they are named after",
  "CUR returns the sum of squared second-order increments of each segment, AVG the mean and STD the standard deviation.",
  "all series and cuts", "universal over data", "fruits/sieving/segment.py:CUR", "fruits/sieving/segment.py:AVG", "fruits/sieving/segment.py:STD")
p("NPI counts partition the segment",
  "For increasing quantile values from -inf to +inf the NPI counts of the bins of a segment add up to the segment length, and NPI() counts the positive increments.",
  "all series, cuts, quantile lists", "universal over data", "fruits/sieving/increment.py:NPI")
p("LPI is the longest run",
  "LPI returns the length of the longest contiguous run of in-range values of the segment.",
  "all series", "maximum over all windows", "fruits/sieving/increment.py:LPI")
p("MPI and XPI are means over the in-range positions",
  "MPI (XPI) returns the mean of the in-range values (their positions relative to the segment start) and 0 if there is none; MPI times NPI is the sum of the in-range values.",
  "all series, cuts, quantiles", "universal over data", "fruits/sieving/increment.py:MPI", "fruits/sieving/increment.py:XPI")
p("PPV is a proportion",
  "After fit PPV features lie in [0,1], are antitone in the quantile value, and the segment features for sorted quantile values add up to the proportion of values in [q_first, q_last).",
  "all datasets, quantiles", "universal over data", "fruits/sieving/implicit.py:PPV")
p("CPV counts strips",
  "CPV returns 2/n' times the number of maximal runs of values >= q (n' the length rounded up to even) and lies in [0,1].",
  "all series", "universal over data", "fruits/sieving/implicit.py:CPV")
p("Sieve wrappers evaluate on increments and integrals",
  "INC(sieve, depth=d) evaluates the sieve on the d-fold increments of the input, INT(sieve) on the cumulative sums, with the wrapped number of features and labels.",
  "all wrapped sieves, depths, data", "parametric in the wrapped sieve", "fruits/sieving/wrapper.py:INC", "fruits/sieving/wrapper.py:INT")
p("Segment labels name the feature",
  "label(i) of a segment sieve names the cut and the quantile interval feature i was computed from.",
  "all cut and q sequences, all feature indices", "all orders of cuts", "fruits/sieving/segment.py:SegmentSieve._label")
p("Copies of seeds behave like the original",
  "copy() of a preparateur, ISS or sieve, fitted with the same data and randomness, transforms like the original.",
  "all built-in seeds and configurations", "all configurations", "fruits/seed.py:Seed.copy", "fruits/sieving/segment.py:SegmentSieve._copy", "fruits/preparation/transform.py:STD._copy")
p("Sieves treat series independently",
  "After fitting, every built-in sieve computes the features of a series from this series only (given its cut points).",
  "all datasets, fitted states", "universal over datasets", "fruits/sieving/segment.py", "fruits/sieving/increment.py", "fruits/sieving/implicit.py")
# ---------------------------------------------------------------- fruit
p("Feature layout",
  "Fruit.transform(X) has nfeatures() columns: for each slice in order, for each iterated sum in order, for each sieve in order, its features; no column is left unset or written twice.",
  "all fruits, all data", "all configurations", "fruits/fruit.py:Fruit.transform", "fruits/fruit.py:FruitSlice.transform", "fruits/fruit.py:Fruit.nfeatures")
p("Chained ISS enumerate the product",
  "A slice with several ISS produces niteratedsums() = product of their counts iterated sums, in lexicographic order of the word indices, each being the composition of the chosen iterated sums.",
  "all lists of ISS", "all chain lengths", "fruits/fruit.py:FruitSlice._iterate_iss", "fruits/fruit.py:FruitSlice.niteratedsums")
p("Fruit.label names the column",
  "Fruit.label(c) is built from the preparateurs, word labels and sieve label of the slice, iterated sum and feature that column c of transform is computed from; out-of-range indices raise.",
  "all fruits, all columns", "mixed-radix decoding with division for all configurations", "fruits/fruit.py:Fruit.label", "fruits/fruit.py:FruitSlice.label")
p("transform needs fit",
  "After any sequence of configuration calls, transform raises unless every slice was successfully fitted after its last configuration change.",
  "all histories of add/cut/clear/fit/copy calls, also on slices directly", "history property", "fruits/fruit.py:Fruit.fit", "fruits/fruit.py:FruitSlice.fit", "fruits/fruit.py:FruitSlice.add")
p("Refitting forgets the past",
  "After a successful fit, transform uses only sieves fitted by that fit call, whatever was fitted, added or cleared before.",
  "all histories", "history property", "fruits/fruit.py:FruitSlice.fit", "fruits/fruit.py:FruitSlice.clear_sieves")
p("A failed fit does not leave a usable fruit",
  "If fit raises, a following transform raises instead of returning features from a partially updated state.",
  "all failure points inside fit", "crash-point property", "fruits/fruit.py:Fruit.fit", "fruits/fruit.py:FruitSlice.fit")
p("Deep copies are independent",
  "No sequence of operations on a deepcopy changes what the original's transform returns, and vice versa; the deepcopy has the same configuration and is unfitted.",
  "all histories on both objects", "aliasing over histories", "fruits/fruit.py:Fruit.deepcopy", "fruits/fruit.py:FruitSlice.deepcopy")
p("Copies keep the settings",
  "FruitSlice.copy()/Fruit.copy() have the same preparateurs, ISS, sieves and settings as the original.",
  "all slices", "all configurations", "fruits/fruit.py:FruitSlice.copy", "fruits/fruit.py:Fruit.copy")
p("clear resets the slice",
  "After clear() a slice has the settings of a new FruitSlice, for every history.",
  "all histories", "history property", "fruits/fruit.py:FruitSlice.clear")
p("Callback protocol",
  "During transform every callback sees, per slice: on_next_slice, one on_preparateur per preparateur, one on_preparation_end, then per iterated sum one on_iterated_sum followed by one on_sieve per sieve, and finally one on_sieving_end; on_sieve receives that sieve's feature columns.",
  "all fruits, all callbacks", "trace property over all configurations", "fruits/fruit.py:FruitSlice.transform", "fruits/callback.py:AbstractCallback")
p("Features are finite",
  "Fruit.transform never returns NaN or infinite values; finite values are returned unchanged.",
  "all inputs including ones that overflow or divide by zero", "all non-finite patterns", "fruits/fruit.py:Fruit.transform")
p("Fit samples are distinct series of the data",
  "fit uses max(1, floor(f*n)) distinct series for a fraction f in (0,1], and exactly one series for the integer 1.",
  "all n>=1, f, random draws", "all random draws", "fruits/fruit.py:FruitSlice._select_fit_sample")
p("Fitting sees consistent coquantiles",
  "During FruitSlice.fit the cached per-series data (coquantiles, L1/L2 variation) used for a sampled series belongs to that series.",
  "all samples", "depends on the random sample", "fruits/fruit.py:FruitSlice.fit", "fruits/cache.py:SharedSeedCache")
p("Slices are independent",
  "The features of a slice do not depend on the other slices of the fruit when the slices share no seed objects.",
  "all fruits", "aliasing over histories", "fruits/fruit.py:Fruit.fit", "fruits/fruit.py:Fruit.transform")
p("Slice bookkeeping",
  "cut/copycut/switch_slice/add keep a valid current slice, cut selects the new slice, switch_slice rejects indices outside 0..len-1, and add on an empty fruit creates a slice; get_slice(i) and fruit[i] return the i-th slice for 0 <= i < len, the (len+i)-th for -len <= i < 0 and raise otherwise; get_slice() returns the current slice.",
  "all histories", "history property", "fruits/fruit.py:Fruit.cut", "fruits/fruit.py:Fruit.switch_slice")
# ---------------------------------------------------------------- CosWISS
p("CosWISS computes the cosine-weighted ISS",
  "CosWISS with exponent s returns sum over i_1<...<i_p<=t of prod letters * prod_j cos(pi*(i_{j+1}-i_j)/(f*(N-1)))**s, with total weighting also times cos(pi*(t-i_p)/(f*(N-1)))**s.",
  "all words, series, frequencies, exponents", "the code expands cos(a-b)**s into products of sines and cosines encoded as digit strings", "fruits/iss/cos.py:CosWISS._get_weightings", "fruits/iss/cos.py:_coswiss_single")
p("CosWISS order and labels",
  "CosWISS returns len(freqs)*len(words) iterated sums, words outer and frequencies inner, for every batch size, and label(i) names that word and frequency.",
  "all word and frequency lists, batch sizes", "index arithmetic for all sizes", "fruits/iss/cos.py:CosWISS.batch_transform", "fruits/iss/cos.py:CosWISS._label")
p("CosWISS dropout is the ISS of masked letters",
  "With dropout the result is the cosine-weighted ISS where the j-th index never lies in the j-th dropped index set.",
  "all words, dropped sets, series", "all random draws", "fruits/iss/cos.py:_leaky_coswiss_single")
# ---------------------------------------------------------------- weightings
p("Weighting lookups lie in [0, scale] and increase",
  "Indices, L1, L2 and (non-reversed) Plateaus lookups without user transform lie in [0, scale], start at 0 and never decrease, so weights exp(a*(g(i)-g(j))) for i<=j, a>=0 never exceed 1.",
  "all datasets, scales>=0", "universal over data", "fruits/iss/weighting.py:Indices", "fruits/iss/weighting.py:L1", "fruits/iss/weighting.py:L2", "fruits/iss/weighting.py:Plateaus")
p("Indices ignores relative",
  "Indices(relative=True) and Indices(relative=False) give the linear ramp g(i)=scale*i/(N-1).",
  "all lengths, scales", "dtype-dependent behaviour for all lengths", "fruits/iss/weighting.py:Indices.get_lookup", "fruits/preparation/transform.py:NRM")
p("Plateaus is a step function",
  "Plateaus(n) takes at most n different values, non-decreasing, constant on equal blocks, and reverse=True reverses it.",
  "all n>1, lengths", "integer division for all lengths", "fruits/iss/weighting.py:Plateaus")
p("Words with arbitrary letters",
  "ISS([w]) for a general Word w: Reals gives the strict iterated sum of the products of its letter functions, Arctic the attained maximum over i_1<=...<=i_p<=t of the sums, Bayesian (non-negative values) the attained maximum over i_1<...<i_p<=t of the products (0 while no such tuple exists); a weighting has no effect on general words.",
  "all words over arbitrary length-preserving letters, all data, all weightings", "letters are user functions; the claim quantifies over all of them",
  "fruits/iss/semiring.py:Semiring._iterated_sum", "fruits/iss/semiring.py:Arctic._iterated_sum", "fruits/iss/words/letters.py:letter")
# ---------------------------------------------------------------- time warping
p("Arctic and Bayesian iterated sums are invariant under time warping",
  "Repeating samples of the series repeats samples of its Arctic iterated sums (and, for non-negative data, of its Bayesian ones) at the same places, without taking increments and with or without L1/L2 weighting; so the features of a warp-invariant sieve do not change.",
  "all series, all stutterings, all words of extended letters, both modes", "quantifies over all ways to repeat samples",
  "fruits/iss/semiring.py:Arctic", "fruits/iss/semiring.py:Bayesian", "fruits/iss/weighting.py:L1", "experiments/fruit_twi.py")
p("Sieves that are invariant under time warping",
  "NPI and MPI with bands that do not contain 0, MAX and MIN with default quantiles, and END, cut at the end or at coquantiles, give the same features for a row and for the same row with repeated samples.",
  "all rows, all stutterings, all cuts at the end or at coquantiles", "quantifies over all ways to repeat samples",
  "fruits/sieving/increment.py:NPI", "fruits/sieving/increment.py:MPI", "fruits/sieving/segment.py:MAX", "fruits/sieving/segment.py:END", "experiments/fruit_twi.py")
p("A fitted fruit treats every series on its own",
  "Row i of Fruit.transform(X) is the single row of Fruit.transform([X[i]]): the features of a series do not depend on which other series are transformed with it, for all preparateurs, ISS, weightings and sieves of the library (and user functions that have the property).",
  "all fitted fruits, all datasets, all series", "the whole pipeline, including caches and shapes read from the first series, for all configurations",
  "fruits/fruit.py:Fruit.transform", "fruits/fruit.py:FruitSlice.transform")
p("Equal preparateurs behave equally",
  "If a == b is True for two newly constructed preparateurs, then fitting both on the same data (with the same random numbers) and transforming the same data gives the same result.",
  "all pairs of preparateurs, all settings, all data, all random numbers", "quantifies over all pairs of settings, data and draws",
  "fruits/preparation/abstract.py:Preparateur.__eq__", "fruits/preparation/transform.py:INC.__eq__", "fruits/preparation/transform.py:STD.__eq__", "fruits/preparation/filter.py:DOT.__eq__")
p("== of preparateurs is an equivalence relation",
  "For preparateurs a, b, c: a == a is True, a == b and b == a agree, and a == b and b == c imply a == c; comparing never raises.",
  "all triples of preparateurs", "quantifies over all pairs and triples of classes and settings",
  "fruits/preparation/abstract.py:Preparateur.__eq__", "fruits/preparation/filter.py:WIN.__eq__", "fruits/preparation/transform.py:RIN.__eq__")
p("A copy of a preparateur is equal to it",
  "p == p.copy() for every preparateur p, fitted or not.",
  "all preparateurs, all settings, all fitted states", "quantifies over all settings and fit histories",
  "fruits/preparation/transform.py:INC.__eq__", "fruits/seed.py:Seed.copy")
p("User-defined letters",
  "The decorator letter registers a function under its own or the given free name, refuses a used name, changes no other letter, and words written with the name apply the function to the given dimension.",
  "all registries, names, functions and dimensions", "the registry is global state with arbitrary history and names are arbitrary strings",
  "fruits/iss/words/letters.py:letter", "fruits/iss/words/letters.py:ExtendedLetter")
p("User-defined semirings",
  "A Semiring subclass that only defines identity, operation and cumulative operation gives, for every word, the sums (in that semiring) over i_1<...<i_p<=t of the products of the letters, for all prefixes requested.",
  "all commutative semirings, words, series, time steps and numbers of saved prefixes", "quantifies over all user-defined operations; the number of tuples grows exponentially",
  "fruits/iss/semiring.py:Semiring._iterated_sum", "fruits/iss/semiring.py:Semiring.iterated_sums", "fruits/iss/words/creation.py:replace_letters")
p("The text of a preparateur tells its settings",
  "str(p) (which is also label(0) and what Fruit.label and the summaries show) of two preparateurs that have not been fitted is the same only if they have the same class and settings, so equal texts mean equal results; copying and fitting a preparateur does not change its text.",
  "all pairs of preparateurs, nested wrappers, all settings, all data, all random numbers", "quantifies over all pairs of settings; unit tests compare a few texts",
  "fruits/preparation/transform.py:INC.__str__", "fruits/preparation/transform.py:STD.__str__", "fruits/preparation/filter.py:DOT.__str__", "fruits/preparation/wrapper.py:DIM.__str__", "fruits/seed.py:Seed.label")
p("Different features have different labels",
  "Within a slice (and within a sieve), different feature indices have different labels.",
  "all slices, chains of ISS, sieves and pairs of feature indices", "quantifies over all configurations and pairs of indices",
  "fruits/fruit.py:FruitSlice.label", "fruits/sieving/segment.py:SegmentSieve._label", "fruits/sieving/increment.py:IncrementSieve._label", "fruits/seed.py:Seed._label")
p("Summaries are complete, ordered and framed",
  "summary() of a slice lists its number of features, every preparateur, every ISS with number of iterated sums, words, semiring and weighting, and every sieve with its number of features, in order, in lines of 38 characters; summary() of a fruit puts them two by two in a frame of 80 characters, an odd last one in a frame of 40.",
  "all fruits with any number of slices and seeds, all texts that fit", "quantifies over all numbers of slices and seeds and all texts",
  "fruits/fruit.py:Fruit.summary", "fruits/fruit.py:FruitSlice.summary")

p("A time warping invariant fruit",
  "A fruit whose slices are built from elastic preparateurs (NRM, QTC, STD over all series), INC and a Reals ISS with positive letters, or an Arctic ISS, or a Bayesian ISS on non-negative data, optionally with raw L1/L2 weighting, and from the sieves END, NPI, MPI, MAX, MIN (default quantiles, coquantile or last cuts), fitted on any training data, returns the same features for a dataset and for the dataset with samples repeated.",
  "all such fruits (any number of slices, words, sieves), all training data, all datasets and all repetitions of samples", "quantifies over all configurations, fit states and warpings; a test checks one",
  "fruits/fruit.py:Fruit.transform", "fruits/fruit.py:FruitSlice.transform", "fruits/iss/iss.py:ISS", "fruits/preparation/transform.py:INC", "fruits/sieving/increment.py:NPI", "experiments/fruit_twi.py")
p("EXTENDED mode over of_weight",
  "An ISS over of_weight(w, dim) in EXTENDED mode computes one iterated sum for every word of weight 1..w over the dimensions, without repetition, with that word as label; in dimension one these are 2^w - 1.",
  "all weights, dimensions, semirings and weightings, all iteration orders of sets", "quantifies over all weights and dimensions; the number of words grows exponentially",
  "fruits/iss/words/creation.py:of_weight", "fruits/iss/cache.py:CachePlan", "fruits/iss/iss.py:ISS.label", "fruits/iss/iss.py:ISS.n_iterated_sums")
p("The fruit of fruit_twi.py",
  "The fruit built by experiments/fruit_twi.py can be fitted to any data, transforms any data with the same number of dimensions into 1725 columns without raising, and is then invariant under time warping.",
  "all training data, datasets, repetitions of samples, iteration orders of sets", "quantifies over all data and warpings",
  "experiments/fruit_twi.py", "fruits/fruit.py:Fruit.nfeatures", "fruits/iss/words/creation.py:alternate_sign")

p("Fit and transform never raise on well-shaped data",
  "A fruit (or slice), built by any history of calls, whose seeds have documented settings matching the number d of dimensions can be fitted to every dataset with d dimensions, and then transforms every dataset with d dimensions, with any number of series of any length: no exception is raised, and the result has one row per series and nfeatures() columns.",
  "all histories of calls, all configurations with documented settings (except: RIN with force_sum_one, Dirichlet RDW, CosWISS with dropout, MAX/MIN with quantile bands, seeds reading the cache after the length was changed), all training and test datasets, all random numbers", "quantifies over all configurations, shapes and random draws; a test tries a few",
  "fruits/fruit.py:Fruit.fit", "fruits/fruit.py:Fruit.transform", "fruits/fruit.py:FruitSlice.fit", "fruits/fruit.py:FruitSlice.transform", "fruits/preparation/transform.py", "fruits/sieving/segment.py", "fruits/iss/iss.py:ISS", "fruits/iss/cos.py:CosWISS")
p("Fitting does not change how a fruit looks",
  "nfeatures(), label(...) at every level and summary() of every fruit and every slice return the same (or raise the same exception) before and after Fruit.fit or FruitSlice.fit, whether fit returns or raises.",
  "all states, fruits, slices, datasets, random numbers and label indices", "quantifies over all states and data, including fits that fail half way",
  "fruits/fruit.py:Fruit.fit", "fruits/fruit.py:FruitSlice.fit", "fruits/fruit.py:Fruit.label", "fruits/fruit.py:Fruit.summary", "fruits/fruit.py:Fruit.nfeatures")
p("Number of words of a given weight",
  "of_weight(w, dim) returns a_w words where a_w is the sum over k = 1..w of C(dim+k-1, k) * a_(w-k) with a_0 = 1; in two dimensions a_(w+2) = 4 a_(w+1) - 2 a_w.",
  "all weights w >= 1, all dimensions, all iteration orders of sets", "the number of words grows exponentially; a test counts a few small ones",
  "fruits/iss/words/creation.py:of_weight")
p("The fruits of fruit_general.py and fruit_reduced.py",
  "The fruits built by experiments/fruit_general.py and experiments/fruit_reduced.py have 20167 and 4431 features, can be fitted to any data (any number of dimensions and lengths) and then transform any data with the same number of dimensions into so many columns without raising.",
  "all training data, datasets, random numbers and iteration orders of sets", "quantifies over all data; the fruit has thousands of iterated sums",
  "experiments/fruit_general.py", "experiments/fruit_reduced.py", "fruits/fruit.py:Fruit.nfeatures", "fruits/fruit.py:Fruit.fit", "fruits/fruit.py:Fruit.transform")

p("Parallel loops do not depend on the schedule",
  "The compiled functions run their loops over the series (MAV, JLD, RPE also over dimensions or time steps) in parallel on one shared result array. Whatever the number of threads and the order in which they execute their reads and writes of single numbers, the array after the loop is the one the sequential loop computes. This covers the iterated sums of the three semirings, CosWISS, MAV, RIN, JLD, RPE, MAX, MIN, CUR, NPI, MPI, XPI, LPI, the coquantiles and the L1/L2 sums of the cache.",
  "all interleavings of all iterations, all data and settings", "a race shows up only in some schedules; tests see a few",
  "fruits/iss/semiring.py:Reals._iterated_sum_fast", "fruits/iss/semiring.py:Arctic._iterated_sum_fast", "fruits/iss/semiring.py:Bayesian._iterated_sum_fast", "fruits/iss/cos.py", "fruits/preparation/transform.py:MAV._backend", "fruits/preparation/transform.py:RIN._backend", "fruits/preparation/transform.py:JLD._backend", "fruits/preparation/transform.py:RPE._backend", "fruits/sieving/segment.py", "fruits/sieving/increment.py", "fruits/cache.py:_coquantile")
p("Number of output dimensions of JLD",
  "JLD(k) with an integer k returns k dimensions; JLD(f) with a float f in (0,1) returns the smallest integer >= 24*log(d)/(3*f**2-2*f**3) dimensions, where d is the number of input dimensions.",
  "all k, f, d and datasets", "universal over settings and dimensions",
  "fruits/preparation/transform.py:JLD._fit")
p("fit_transform",
  "Fruit.fit_transform(X) never raises for documented settings and well-shaped data, whether or not the fruit was fitted before; its result has one row per series and nfeatures() columns, is what transform(X) returns afterwards, and does not depend on what the fruit was fitted to before.",
  "all histories, configurations and datasets", "history property",
  "fruits/fruit.py:Fruit.fit_transform", "fruits/fruit.py:FruitSlice.fit_transform")

p("Learned quantiles of segment sieves",
  "fit of a segment sieve on a non-empty array succeeds for probabilities in [0,1] and -1 and raises otherwise; afterwards its bands are bounded by, in increasing order, minus infinity for -1, plus infinity for 1, zero for 0 and the linearly interpolated quantile of all training values (for NPI, MPI, XPI, LPI: of their inc-fold increments) for every other entry of q. In particular NPI(q=[-1,a,1]) counts at least floor(a*(N-1))+1 of the N training values in its first band and the rest in the second.",
  "all sieves, quantiles, increments and training data", "universal over real data; a test fits a few arrays",
  "fruits/sieving/segment.py:SegmentSieve._fit", "fruits/sieving/increment.py:IncrementSieve._fit")
p("Accepted settings of PPV and CPV can be fitted",
  "PPV and CPV raise a ValueError at construction exactly if the flags do not match the quantiles, a non-constant quantile is no probability, the sample size is not in (0,1] or segments is set with less than two quantiles; every object that was constructed can be fitted on every non-empty array.",
  "all arguments, arrays, random draws and iteration orders of sets", "universal over arguments and data",
  "fruits/sieving/implicit.py:PPV.__init__", "fruits/sieving/implicit.py:PPV._fit")

p("lengthen repeats the last value",
  "lengthen(X, l) of the experiments package returns, for every l >= 0 and every dataset of n time steps, a dataset with floor(l*n) more time steps; the old time steps keep their values and the new ones have the last value of their series.",
  "all datasets and all l >= 0", "universal over data",
  "experiments/corbeille/corbeille/data.py:lengthen")
p("implant_stuttering repeats samples",
  "implant_stuttering(X, s) of the experiments package always returns, whatever the random draws are; the result has floor(s*n) more time steps, and each dimension of each series is the original one with some samples repeated: the order is kept, no sample is left out and none is invented.",
  "all datasets, all s >= 0, all random draws", "the loop is random; tests see a few draws",
  "experiments/corbeille/corbeille/data.py:implant_stuttering")
p("Lengthening and stuttering do not change the features of a time warping invariant fruit",
  "A time warping invariant fruit (see the property of that name), fitted on any training data, returns the same features for a dataset X, for lengthen(X, l) and for implant_stuttering(X, s).",
  "all such fruits, training data, datasets, l, s >= 0 and random draws", "universal over configurations, data and random draws",
  "experiments/corbeille/corbeille/data.py:lengthen", "experiments/corbeille/corbeille/data.py:implant_stuttering", "fruits/fruit.py:Fruit.transform")
p("downsample removes the documented share of values",
  "downsample(X, r) of the experiments package removes the share r of the values of each series and keeps the others in order.",
  "all datasets and all resolutions in (0,1]", "universal over data and resolutions",
  "experiments/corbeille/corbeille/data.py:downsample")
p("upsample doubles the resolution",
  "upsample(X) of the experiments package returns series of length 2l-1 with the old values at the even times and the mean of two neighbours between them.",
  "all datasets with any number of dimensions", "universal over data and shapes",
  "experiments/corbeille/corbeille/data.py:upsample")
p("replace_nan replaces exactly the NaNs",
  "replace_nan(X) of the experiments package keeps all values that are not NaN and replaces a NaN by the last observed value of its series, or by 0 if there is none; replace_nan(X, v) replaces every NaN by v and keeps all other values. No NaN is left.",
  "all datasets with NaN and infinite values anywhere, all v", "universal over data and positions of NaNs",
  "experiments/corbeille/corbeille/data.py:replace_nan")
p("multisine generates balanced classes",
  "multisine of the experiments package returns a training and a test set of the wanted sizes; the labels are 0..n_classes-1 in order, the numbers of series of two classes differ by at most one, and every series is the sum of sines amplitude*sin(frequency*x+phase) of its class at equidistant points of [0,2*pi], plus its noise.",
  "all sizes, lengths, numbers of classes, coefficients and noise", "universal over sizes",
  "experiments/corbeille/corbeille/data.py:multisine")
p("label at the level 'prepared' describes a slice",
  "fruit.label(i, 'prepared') returns the labels of all preparateurs of slice i, for every slice of the fruit, and raises an IndexError behind the last slice.",
  "all fruits and slice indices", "universal over configurations",
  "fruits/fruit.py:Fruit.label", "fruits/fruit.py:FruitSlice.label")
p("split_index finds the place of every feature",
  "For a fruit whose slices all have an ISS, split_index(fruit, c, level) of the experiments package is the c-th place (slice, iterated sum, sieve, feature), (slice, iterated sum) or (slice) of the fruit in lexicographic order, and a ValueError for a negative index or behind the last place; at the level 'features' this is the place of column c of transform.",
  "all fruits, indices and levels", "universal over configurations",
  "experiments/corbeille/corbeille/tools.py:split_index", "fruits/fruit.py:Fruit.transform")
p("The callback of Fruitalyser saves the intermediate results",
  "In every successful call of transform, the callback of the Fruitalyser never raises and holds afterwards, for each slice in order, exactly what it was asked to save: the data after all preparateurs, all iterated sums, and the features of the slice.",
  "all histories of a fruit, datasets and options", "universal over configurations, histories and data",
  "experiments/corbeille/corbeille/fruitalyser.py:_TransformationCallback", "fruits/fruit.py:Fruit.transform")
p("Fruitalyser.plot shows what its title says",
  "After transform_all with saved results, plot(level, index) draws the prepared test data of slice `index`, or the iterated sum number `index` of the test data, and its title is the label of exactly these data.",
  "all histories, fruits, datasets and indices", "universal over configurations, histories and data",
  "experiments/corbeille/corbeille/fruitalyser.py:Fruitalyser.plot", "fruits/fruit.py:Fruit.label")
p("Fruitalyser.features is a correctly labelled table",
  "After transform_all, features(indices, source) returns one column for each index, in order: its name is the label of this feature of the fruit, its entries are the values of this feature for the series of the training set, of the test set, or of both one below the other; without indices all features are listed, and an index that is no feature raises.",
  "all histories, fruits, datasets, lists of indices and sources", "universal over configurations, histories and data",
  "experiments/corbeille/corbeille/fruitalyser.py:Fruitalyser.features")
p("Fruitalyser.classify uses features of one fit",
  "In every history of calls, classify raises a RuntimeError before transform_all has returned; afterwards it trains the classifier on the training features and scores it on the test features of one and the same fit of the fruit, restricted to the given columns, whatever else the user did with the fruit or with failing calls of transform_all.",
  "all histories of calls on fruits, seeds and the analyser, all classifiers, postprocessings and columns", "ranges over all histories",
  "experiments/corbeille/corbeille/fruitalyser.py:Fruitalyser.classify", "experiments/corbeille/corbeille/fruitalyser.py:Fruitalyser.transform_all")
p("load numbers the classes of arff files consistently",
  "For a dataset in .arff files load returns one class number for each record; two records, both of one set or one of each, get the same number exactly if they have the same label, and labels are numbered 0, 1, 2, ... in order of their first appearance, training set first.",
  "all training and test files", "universal over data",
  "experiments/corbeille/corbeille/data.py:load")
p("load returns the series of arff files",
  "If all records of the training file have one shape and all records of the test file have one shape, load returns exactly the series of the records, in order.",
  "all training and test files", "universal over data",
  "experiments/corbeille/corbeille/data.py:load")
p("load reads text files",
  "For two text files whose lines list the same number of numbers, separated by commas or by white space, load detects the separator and returns for every line the first number as class and the others as series with one dimension, NaNs replaced unless keep_nan is set.",
  "all text files, number formats and options", "universal over files",
  "experiments/corbeille/corbeille/data.py:load")
p("The cache of load is transparent",
  "load(..., cache=True) returns what load without a cache returns, in every sequence of calls, for any interleaving of several processes and after a process was stopped at any point.",
  "all numbers of processes, schedules, crash points and sequences of calls", "ranges over schedules and crash points",
  "experiments/corbeille/corbeille/data.py:load")
p("load_all yields the wanted datasets in order",
  "load_all(path, datasets) loads each directory in path that is listed in datasets (every directory if there is no list) exactly once, in increasing order of names, and nothing else.",
  "all directory contents and lists of names", "universal over directory contents",
  "experiments/corbeille/corbeille/data.py:load_all")
p("Runs of fruitify do not influence each other",
  "In a state after any history of calls, each of the mean_over_n_runs runs of fruitify has the score that it would have as the only run, up to the random numbers drawn: the fruit is fitted on the training series only, the classifier is trained on their features and scored on the features of the test series. The mean of the scores is returned (NaN for no runs); if all draws have the same outcome, the number of runs does not matter.",
  "all histories, fruits, classifiers, datasets and numbers of runs", "ranges over all histories",
  "experiments/corbeille/corbeille/fruitifier.py:fruitify", "fruits/fruit.py:Fruit.fit", "fruits/fruit.py:Fruit.transform")
p("decide_which_fruit returns the best choice",
  "The function made by decide_which_fruit returns an unfitted deep copy of the first choice (its second fruit, if it is a pair) whose mean accuracy over its splits and runs is largest, where every experiment has the score that it would have if no other choice had been tried; if a class has a single sample, it returns a deep copy of the first choice and fits nothing.",
  "all histories, lists of choices (also sharing seeds), classifiers, splits and datasets", "ranges over all histories",
  "experiments/corbeille/corbeille/fruitifier.py:decide_which_fruit")
p("decide_which_fruit asks for splits that exist",
  "If every class has at least two samples, the validation size is adapted such that a stratified split into training and validation set with at least as many samples as classes in both sets exists, for every given validation_size.",
  "all class vectors and validation sizes", "universal over data",
  "experiments/corbeille/corbeille/fruitifier.py:decide_which_fruit")
p("fruitify_all writes complete tables",
  "After each dataset the result file of fruitify_all holds the rows of exactly the datasets finished so far, in order, whichever dataset later fails to load or to be classified; if all succeed, the table of all rows is returned. For a given fruit each row has the accuracy that fruitify has for this dataset alone, up to the random numbers drawn. NaN values in the data count as 0, infinite ones as the largest number.",
  "all lists of datasets, histories, fruits, classifiers and points of failure", "ranges over failures and histories",
  "experiments/corbeille/corbeille/fruitifier.py:fruitify_all")
p("fruitify_all does not overwrite results",
  "The result file of fruitify_all has the given name, with the ending .csv added if it is missing, or results_fruits.csv; if such a file exists, the time is added to the name, so an existing result file is never overwritten.",
  "all names, times and directory contents", "universal over directory contents",
  "experiments/corbeille/corbeille/fruitifier.py:fruitify_all")

p("Different simple words have different iterated sums",
  "Two simple words are equal (==) exactly when ISS gives the same iterated sums for both on all data: equal words have the same sums over each semiring, and unequal words are told apart by some dataset.",
  "all pairs of simple words, semirings and datasets", "universal over words and data",
  "fruits/iss/words/word.py:SimpleWord.__eq__", "fruits/iss/iss.py:ISS")
p("== of words is an equivalence relation",
  "w == w for every word, u == v implies v == u, u == v and v == w imply u == w, and equal words stay equal when both are multiplied with the same string.",
  "all words and strings", "universal over words",
  "fruits/iss/words/word.py:Word.__eq__", "fruits/iss/words/word.py:SimpleWord.__eq__")

p("Fruitalyser.plot draws the series of each class",
  "With mean=True one line is drawn for each class, in increasing order of the classes: the mean of its series, between their pointwise minimum and maximum (bounds). Otherwise the first nseries series of each class (or of the dataset) are drawn; an IndexError is raised exactly if there are fewer. The legend names the class of each line.",
  "all datasets, class vectors and options", "universal over data",
  "experiments/corbeille/corbeille/fruitalyser.py:Fruitalyser._plot")
p("scatter_features shows every sample once",
  "The groups of scatter_features are the classes in increasing order; each has as points the two features of exactly its samples, and in both histograms each of its samples is counted in exactly one bar. The bars of the classes are stacked: those of a class start where the bars of all classes before end.",
  "all analysers, features, sources and numbers of bins", "universal over data",
  "experiments/corbeille/corbeille/fruitalyser.py:Fruitalyser.scatter_features")
p("test_classifier compares its test cases fairly",
  "After transform_all, the accuracy plotted for each test case is the one classify returns for a new classifier with this setting, independent of the other test cases, and the red line marks the first test case with the largest accuracy; an exception of a classifier is passed on.",
  "all classifiers, lists of test cases, indices and features", "universal over classifiers",
  "experiments/corbeille/corbeille/fruitalyser.py:Fruitalyser.test_classifier")

p("Iterated sums of a series are determined by those of its parts",
  "If a dataset is cut in time into two parts, the unweighted iterated sum of a word over the whole is, up to the cut, that of the first part; after the cut it is the sum over all splittings of the word into prefix and suffix of (the prefix over the whole first part) times (the suffix over the second part) - Chen's identity; over the arctic and Bayesian semirings with maximum and the semiring product instead.",
  "all words, pairs of datasets with the same series and dimensions, and times", "universal over words, data and cuts",
  "fruits/iss/iss.py:ISS.transform", "fruits/iss/semiring.py:Reals", "fruits/iss/semiring.py:Arctic", "fruits/iss/semiring.py:Bayesian")
p("Iterated sums depend only on the dimensions a word names",
  "Renaming the dimensions of the data and accordingly in the words, or adding further dimensions that the words do not name, does not change the iterated sums, for each semiring and weighting whose lookup does not depend on the dimensions.",
  "all words, datasets, injective renamings and added dimensions", "universal over words, data and renamings",
  "fruits/iss/iss.py:ISS.transform", "fruits/iss/words/word.py:SimpleWord")
p("The getters of a slice return its seeds",
  "get_preparateurs(), get_iss() and get_sieves() return the seeds added to the slice since the last clear, in order, an add that raises having added the seeds before the faulty one. No other call changes them. A slice whose seeds were changed, by whatever means, must be fitted again before transform.",
  "all histories of calls and arguments", "universal over histories",
  "fruits/fruit.py:FruitSlice.get_preparateurs", "fruits/fruit.py:FruitSlice.get_iss", "fruits/fruit.py:FruitSlice.get_sieves", "fruits/fruit.py:FruitSlice.add")

p("ISS never reads or writes outside its arrays",
  "ISS.transform and batch_transform never access memory outside the arrays given to the compiled kernels: data, alpha, lookup and result. (numba does not check indices, so such an access is silent.)",
  "all semirings, words, alphas, weightings, modes and datasets", "no test sees a silent access outside an array; universal over inputs",
  "fruits/iss/semiring.py:Reals", "fruits/iss/semiring.py:Arctic", "fruits/iss/semiring.py:Bayesian", "fruits/iss/semiring.py:Semiring.iterated_sums", "fruits/iss/iss.py:ISS.transform")
p("The compiled preparateurs never read or write outside their arrays",
  "RIN, JLD, MAV and RPE, after fit, never access memory outside the arrays given to their compiled kernels: data, kernel, bias, dimensions and result, whatever was drawn in fit.",
  "all configurations, random draws, training data and data", "no test sees a silent access outside an array; universal over inputs and draws",
  "fruits/preparation/transform.py:RIN", "fruits/preparation/transform.py:JLD", "fruits/preparation/transform.py:MAV", "fruits/preparation/transform.py:RPE")
p("CosWISS never reads or writes outside its arrays",
  "CosWISS, after fit, never accesses memory outside the arrays given to its compiled functions, plain, with a network and with dropout, whatever was drawn in fit.",
  "all words, frequencies, exponents, random draws, training data and data", "no test sees a silent access outside an array; universal over inputs and draws",
  "fruits/iss/cos.py:CosWISS", "fruits/iss/cos.py:_coswiss_single", "fruits/iss/cos.py:_leaky_coswiss_single", "fruits/iss/cos.py:_ffn")
p("The compiled sieves and the shared cache never read or write outside their arrays",
  "The compiled functions of MAX, MIN, CUR, AVG, STD, NPI, MPI, XPI, LPI and of the shared cache never access memory outside their arrays (data, cuts, quantiles, result), for all cuts and quantiles, including cuts beyond the length and unsorted or repeated quantiles; for the cache on series with at least one dimension and one time step.",
  "all cuts, quantiles, cache keys and datasets", "no test sees a silent access outside an array; universal over inputs",
  "fruits/sieving/segment.py:SegmentSieve", "fruits/sieving/increment.py:IncrementSieve", "fruits/cache.py:SharedSeedCache")

p("The rounding error of iterated sums is bounded",
  "Computed in floating point (every operation rounded with relative error at most u; no overflow or underflow, operations in the order of the source), an entry of ISS.transform differs from the exact iterated sum by at most (1+u)^N - 1 times the iterated sum of the absolute values, where N counts the factors of the word plus n+2 per extended letter (Reals); with similar N for Arctic and Bayesian and for any weighting. For non-negative data this is a relative error of about N*u.",
  "all floating-point formats with monotone rounding, words, datasets, weightings and time steps", "no test ranges over all data; the error depends on length and word",
  "fruits/iss/semiring.py:Reals", "fruits/iss/semiring.py:Arctic", "fruits/iss/semiring.py:Bayesian", "fruits/iss/iss.py:ISS.transform")
p("Prefixes, causality and monotonicity of iterated sums hold bit for bit in floating point",
  "In floating point as in C153 (operations in the order of the source; C160 is about reordering by fastmath): each of the last m rows is bit for bit the result for the prefix of the word; the result for the first m time steps is bit for bit the first m time steps of the result; Arctic and Bayesian iterated sums never decrease in time, nor do Reals iterated sums of words in which every dimension has even exponents or non-negative data (which also are never negative).",
  "all floating-point formats with monotone rounding, words and datasets", "universal over formats, words and data; rounding could break any of these",
  "fruits/iss/semiring.py:Reals", "fruits/iss/semiring.py:Arctic", "fruits/iss/semiring.py:Bayesian", "fruits/iss/iss.py:ISS.transform")

p("The cache in floating point",
  "Computed in floating point (as in C153, with the operations in the order of the source), the cached norm sums of a series of n time steps differ from the exact L1/L2 variation by at most (1+u)^(n+2) - 1 times the variation, start at 0 and never decrease. The computed q-coquantile c satisfies c <= n, c >= 1 for q >= 0, c = n for q >= 1, never decreases in q, and time step t lies before c if and only if the computed norm sum up to t is at most the computed q times the total.",
  "all floating-point formats with monotone rounding, norms, levels q and datasets", "universal over formats, data and levels; rounding could break each of these",
  "fruits/cache.py:SharedSeedCache.get", "fruits/cache.py:_L1_sum", "fruits/cache.py:_L2_sum", "fruits/cache.py:_coquantile")
p("Time-warping invariance holds bit for bit in floating point",
  "In floating point as in C153 (operations in the order of the source): repeating samples of a series (any time warp) repeats, bit for bit, the computed Reals iterated sums of its computed increments, the computed Arctic and Bayesian iterated sums of the series, the cached norm sums, and moves the coquantiles with the samples, although the sums are accumulated over more, differently placed terms.",
  "all floating-point formats with monotone rounding, time warps, words, weightings and datasets", "universal over formats, warps, words and data",
  "fruits/iss/semiring.py:Reals", "fruits/iss/semiring.py:Arctic", "fruits/iss/semiring.py:Bayesian", "fruits/preparation/transform.py:INC", "fruits/cache.py:SharedSeedCache.get")
p("Counting sieves are exact in floating point",
  "In floating point as in C153: NPI and LPI (increments=1) with integer cuts and quantiles among -1, 0, 1 return in floating point exactly the numbers of exact arithmetic; NPI() is the number of the time points t >= 1 with x_{t-1} < x_t. The features of PPV and CPV are the exact features, rounded once: in [0, 1], monotone in the quantile, 1 if all values reach the quantile and 0 if and only if none does.",
  "all floating-point formats with monotone rounding, cuts, quantiles and datasets", "universal over formats and data",
  "fruits/sieving/increment.py:NPI", "fruits/sieving/increment.py:LPI", "fruits/sieving/implicit.py:PPV", "fruits/sieving/implicit.py:CPV")
p("NRM in floating point",
  "Computed in floating point as in C153 (NRM is numpy code, each operation of which is rounded on its own), NRM keeps the shape, gives values in [0, 1], zeros for a constant block (dimension, or series with scale_dim), exactly 0 and exactly 1 somewhere in any other block; it keeps the order of the values of a block, each value differs from the exact one by three roundings, and applying it again changes no bit.",
  "all floating-point formats with monotone rounding, both settings of scale_dim and datasets", "universal over formats and data",
  "fruits/preparation/transform.py:NRM")
p("Time warping and words with arbitrary letters",
  "Words whose letters look at one time point at a time (DIM, ABS and user-defined letters): repeating samples of a series repeats the samples of its Arctic iterated sums in the same way, and so for the Reals iterated sums of its increments (INC) if each extended letter has a letter that is zero at zero; features of warp-invariant sieves do not change. For Bayesian iterated sums of such words this does not hold, even on positive data.",
  "all pointwise letters, words, modes, weightings, datasets and time warps", "universal over letters (functions), words, warps and data",
  "fruits/iss/semiring.py:Semiring._iterated_sum", "fruits/iss/semiring.py:Arctic", "fruits/iss/words/letters.py:ExtendedLetter", "fruits/iss/words/word.py:Word")
p("fastmath changes iterated sums by rounding errors only",
  "The kernels are compiled with fastmath, so the compiler may regroup and reorder sums, products and maxima, fuse operations, multiply by reciprocals and factor out. Whatever it does, the Reals, Arctic and Bayesian iterated sums it returns obey the error bounds of C153 (with two roundings per division), two compilations differ by at most twice the bound, and for integer data without division the result is exact, whatever the compiler does, as long as the iterated sums of the absolute values are integers of the format (2^53 for float64).",
  "all floating-point formats, all sequences of rewrites and fusions, words, weightings and datasets", "universal over what a compiler may do, over formats, words and data",
  "fruits/iss/semiring.py:Reals._iterated_sum_fast", "fruits/iss/semiring.py:Arctic._iterated_sum_fast", "fruits/iss/semiring.py:Bayesian._iterated_sum_fast")
p("Bayesian iterated sums of exp(x) are exponentials of Arctic iterated sums of x",
  "ISS.transform with the semiring Bayesian, applied to the data exp(X), returns the entrywise exponentials of what it returns with Arctic for X: for all words (also with negative exponents), in SINGLE and EXTENDED mode, without or with a weighting (total or not) that gives the same numbers for both.",
  "all datasets, words, modes and weightings", "universal over data and words; relates two different kernels",
  "fruits/iss/semiring.py:Arctic", "fruits/iss/semiring.py:Bayesian", "fruits/iss/iss.py:ISS.transform")
p("Iterated sums are stable and monotone in the data",
  "If two datasets differ by at most eps in every entry, their Arctic iterated sums differ by at most N*eps, N the sum of the absolute exponents of the word, independently of the length of the series, and so do the features END, MAX and MIN (integer cuts) computed from them; Reals iterated sums of data in [-M, M] differ by at most C(t+1, p)*N*eps*M^(N-1). With non-negative exponents larger data give larger Arctic iterated sums, and for non-negative data larger and non-negative Reals and Bayesian iterated sums.",
  "all pairs of datasets of the same shape, words, modes and weightings with the same numbers", "universal over pairs of datasets",
  "fruits/iss/semiring.py:Reals", "fruits/iss/semiring.py:Arctic", "fruits/iss/semiring.py:Bayesian", "fruits/sieving/segment.py:END", "fruits/sieving/segment.py:MAX", "fruits/sieving/segment.py:MIN")
p("Iterated sums and running a series backwards",
  "Reversing a series in time and reversing the order of the extended letters of a word leaves the iterated sum over the whole series, the last value of the returned array, unchanged, in the semirings Reals, Arctic and (non-negative data) Bayesian.",
  "all datasets and lists of simple words, without weighting", "universal over data and words; relates two different inputs",
  "fruits/iss/semiring.py:Reals", "fruits/iss/semiring.py:Arctic", "fruits/iss/semiring.py:Bayesian", "fruits/iss/iss.py:ISS.transform")
p("Integer arrays are treated like the same numbers stored as floats",
  "A dataset given as an integer array leads to the results of the same numbers given as a float array, or to a TypeError. True for iterated sums (a TypeError for every SimpleWord, exact results for general words) and for all preparateurs except NRM, which returns 1 at the maxima and 0 elsewhere, and NEW, which truncates the values of the wrapped preparateur to integers, both without any error.",
  "all preparateurs (nested in wrappers), sequences of them, words, integer-valued datasets and caches of either type", "universal over data and configurations; tests use float data",
  "fruits/preparation/transform.py:NRM._transform", "fruits/preparation/wrapper.py:NEW._transform", "fruits/preparation/wrapper.py:DIM._transform", "fruits/cache.py:_increments", "fruits/iss/semiring.py:Semiring.iterated_sums")
p("Transforming never changes the data it is given",
  "preparateur.transform(X), and a sequence of preparateurs in a slice, leave the array X and every other array that existed before the call unchanged, whether the call returns or raises; the returned array is a new one, so that changing it later does not reach X; it has the content that the value models of the other properties give; and a second call with the same X has the same outcome.",
  "all preparateurs (nested in wrappers), sequences of them, memories and arrays", "universal over programs that write to shared memory: a test sees a few arrays, an alias shows only for some configurations",
  "fruits/preparation/transform.py:INC._transform", "fruits/preparation/transform.py:CTS._transform", "fruits/preparation/filter.py:DIL._transform", "fruits/preparation/filter.py:PDD._transform", "fruits/preparation/wrapper.py:DIM._transform", "fruits/preparation/wrapper.py:NEW._transform", "fruits/fruit.py:FruitSlice.transform")
p("Features do not depend on the unit of measurement",
  "If all data, for fitting and for transforming, are multiplied by the same positive number c (metres instead of millimetres), then: a fruit each of whose slices removes the unit (NRM, or STD with std_eps=0, after preparateurs that keep the unit) raises the same exception in fit or returns exactly the same features; every preparateur that keeps the unit (INC, MAV, LAG, CTS, QTC, RIN, RPE, DIL, WIN, DOT, PDD, STD(var=False), JLD without bias, DIM and NEW around them) returns c times its old result and learns in the new unit; a fitted sieve returns its old features times c^0 (NPI, XPI, LPI, PPV, CPV), c^1 (MAX, MIN, END, MPI) or c^2 (CUR, AVG, STD). STD with its default std_eps=1e-5 does not remove the unit.",
  "all c > 0, datasets, random draws, fruits of built-in seeds, weightings that do not use raw increments in absolute numbers", "universal over data and configurations; relates two runs of fit and transform",
  "fruits/preparation/transform.py:NRM._transform", "fruits/preparation/transform.py:STD._transform", "fruits/fruit.py:Fruit.fit", "fruits/fruit.py:Fruit.transform", "fruits/sieving/segment.py", "fruits/sieving/increment.py", "fruits/sieving/implicit.py", "fruits/cache.py:SharedSeedCache")
p("Fitting to all series does not depend on their order",
  "If every slice of a fruit has fit_sample_size=1.0 and its PPV and CPV sieves have sample_size=1, then fitting it to the same series in another order (with the same random numbers) leaves the fruit in exactly the same state, and fit_transform returns the same row for the same series.",
  "all datasets, permutations of their series, random draws and fruits of built-in seeds", "universal over datasets, permutations and random draws; relates two runs",
  "fruits/fruit.py:FruitSlice._select_fit_sample", "fruits/fruit.py:FruitSlice.fit", "fruits/preparation/transform.py:STD._fit", "fruits/preparation/transform.py:QTC._fit", "fruits/preparation/transform.py:RDW._fit", "fruits/sieving/segment.py:SegmentSieve._fit", "fruits/sieving/implicit.py:PPV._fit")
p("Features do not depend on the level of the series",
  "If a constant is added to every dimension of every series (a different one for each, in the training data and in the data to transform), then a fruit each of whose slices removes the level (INC with zero padding, STD, NRM or FFN with center=True, first or after LAG, CTS, NEW and DIM of such preparateurs) has exactly the same state after fit, or fit raises the same exception, and transform returns exactly the same features, whatever ISS, weightings of the raw data, cuts by coquantiles, further preparateurs and sieves follow. With one constant per series this also holds with NRM(scale_dim=True). MAV before INC does depend on the level, because of the zeros that MAV puts in front.",
  "all datasets, constants, random draws and fruits of built-in seeds", "universal over data, constants and configurations; relates two runs of fit and transform",
  "fruits/preparation/transform.py:INC._transform", "fruits/preparation/transform.py:STD._transform", "fruits/preparation/transform.py:NRM._transform", "fruits/preparation/transform.py:FFN._transform", "fruits/preparation/transform.py:LAG._transform", "fruits/preparation/wrapper.py:NEW._transform", "fruits/cache.py:SharedSeedCache", "fruits/fruit.py:Fruit.fit", "fruits/fruit.py:Fruit.transform")
p("A missing value affects only the iterated sums that use it",
  "If values of a dataset are missing (NaN), the iterated sum of a word for series i at time t is still the number it is without them as long as the missing values are in other series, at later times, in dimensions the word does not name, or at times no index tuple of the word up to t uses. With Reals the sum is NaN as soon as an index tuple uses a missing value; Arctic and Bayesian skip missing values after the first time step.",
  "all series with any set of missing values, words, weightings, extended or not, semirings Reals, Arctic and Bayesian, and times", "universal over all patterns of missing values, words and times",
  "fruits/iss/semiring.py:_reals_single", "fruits/iss/semiring.py:_total_weighted_reals_single", "fruits/iss/semiring.py:_arctic_single", "fruits/iss/semiring.py:_total_weighted_arctic_single", "fruits/iss/semiring.py:_bayesian_single", "fruits/iss/semiring.py:_total_weighted_bayesian_single", "fruits/iss/semiring.py:Semiring._iterated_sum")
p("A missing value in an iterated sum is skipped by the sieves and concerns only its own series",
  "If iterated sums have missing values (NaN), a fitted sieve computes the features of a series from this series alone and from its known values: MAX and MIN give the extreme of the known values of a segment in a band, NPI, MPI, XPI, LPI and CUR count, average or sum the known entries of their view, PPV and CPV treat a missing value as one below all quantiles, and END is NaN only if the value it takes is missing; fitting a sieve to data with missing values in some series leaves the features of the other series what they are without them.",
  "all arrays with any set of missing values, sieves, cuts, quantiles and fitted states", "universal over all patterns of missing values, segments and bands; relates two runs",
  "fruits/sieving/segment.py:SegmentSieve._fit", "fruits/sieving/segment.py:SegmentSieve._get_transformed_cuts", "fruits/sieving/segment.py:MAX._backend", "fruits/sieving/segment.py:END._transform", "fruits/sieving/increment.py:NPI._backend", "fruits/sieving/increment.py:LPI._backend", "fruits/sieving/implicit.py:PPV._fit", "fruits/sieving/implicit.py:PPV._transform", "fruits/cache.py:_coquantile")
p("A missing value stays a missing value in prepared data and concerns only its own series",
  "If data have missing values (NaN), every entry a fitted preparateur returns is NaN or the value it has for the data without gaps, whatever numbers stand for the missing ones, and the same exceptions are raised; what is returned for a series depends on this series alone (INC and MAV give NaN exactly at the times whose window meets a gap); fitting a preparateur to data with missing values in some series leaves the result for the other series what it is without them.",
  "all datasets with any set of missing values, preparateurs INC, STD, NRM, MAV, LAG, CTS, QTC, DIL, WIN, DOT, PDD, NEW and DIM, their settings and fitted states", "universal over all patterns of missing values, settings and shapes; relates two runs",
  "fruits/preparation/transform.py:INC._transform", "fruits/preparation/transform.py:STD._fit", "fruits/preparation/transform.py:STD._transform", "fruits/preparation/transform.py:NRM._transform", "fruits/preparation/transform.py:MAV._transform", "fruits/preparation/transform.py:LAG._transform", "fruits/preparation/transform.py:QTC._fit", "fruits/preparation/transform.py:QTC._transform", "fruits/preparation/filter.py:WIN._transform", "fruits/preparation/wrapper.py:DIM._transform", "fruits/preparation/wrapper.py:NEW._transform")
p("A missing value concerns only the features of its own series",
  "If two datasets of the same shape agree in a series, and differ arbitrarily in values and missing values (NaN) of the other series, a fitted fruit that returns features for both returns one row per series and the same features for the common series; features that are missing are returned as 0, and without missing values the features are those for numbers.",
  "all fitted fruits with any number of slices (chains of the preparateurs of C171, simple words in the Reals, Arctic and Bayesian semirings, all modelled sieves with fitted states, also fitted to NaN), all pairs of datasets, series i", "relates two runs; universal over all patterns of missing values and all pipelines",
  "fruits/fruit.py:Fruit.transform", "fruits/fruit.py:FruitSlice.transform", "fruits/iss/iss.py:ISS.batch_transform", "fruits/cache.py:SharedSeedCache")

out = os.path.join(os.path.dirname(os.path.dirname(os.path.abspath(__file__))), "properties.jsonl")
with open(out, "w") as f:
    for x in P:
        f.write(json.dumps(x, ensure_ascii=False) + "\n")
print(len(P))
