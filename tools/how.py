def h(ids, t):
    for i in ids.split(): how[i] = t
h("C01", "letter products and the kernels `_reals_single`/`_total_weighted_reals_single` line by line; induction over extended letters, each kernel step is the inner sum over strictly increasing tuples")
h("C02 C05", "Arctic kernels; generic running-maximum chain lemma, `IsGreatest` of the set of candidate values")
h("C03 C06", "Bayesian kernels; the same chain lemma with multiplication by non-negative values")
h("C04", "the weighted kernels; as C01 with the exponents of the weights telescoping")
h("C07", "the `extended` argument of the kernels; row r is the last row of the kernel on the prefix")
h("C08", "both kernels equal the specification at zero weights")
h("C09 C94", "the generic `Word` path of the three semirings; closed forms by induction over letters and time")
h("C10", "from the closed forms and by induction on `take`")
h("C11", "quasi-shuffle of letter lists defined recursively; induction over both words and time")
h("C12 C95 C96", "time warping as a monotone surjection of index ranges (repeat counts); zero increments do not change running sums, repeated samples do not change running maxima, sieves are counted band by band")
h("C13 C14", "from the closed forms")
h("C15", "the argmax kernel; loop invariant that stored positions attain the running maximum, then the backtracking loop")
h("C16 C17 C18 C19 C20 C21 C22", "`_calculate_ISS`, `CachePlan` and the `ISS` class; list induction, invariant of the plan")
h("C23 C24 C25 C29 C34", "the regular expression as an automaton and `_add_letters`; inductive grammar, equivalence with the automaton, string lemmas")
h("C26 C27", "`of_weight` and its enumerations; bijection with compositions filled by multisets, stars and bars")
h("C28", "`alternate_sign` on strings")
h("C30 C31 C32 C33", "words and letters as heap objects, registry as a state machine; invariants over histories, iteration with the shared cursor")
h("C35 C36 C37 C38", "`SharedSeedCache` and `Seed.fit/transform` with the attached cache; invariants over histories of calls")
h("C39 C40 C41 C42 C43 C44 C45 C46 C47 C48 C49 C50 C51 C52 C53 C54 C55 C56 C57 C58", "`_fit/_transform` of the preparateurs on lists; pointwise characterisation on the `tab` normal form")
h("C59 C60 C61 C62 C63 C64 C65 C66 C67 C68 C69 C70 C71 C72", "the sieves' `_backend` loops; pointwise and counting lemmas per band")
h("C73 C74 C75 C76 C77 C78 C79 C80 C81 C82 C83 C84 C85 C86 C87", "`Fruit`/`FruitSlice` as a state machine over a heap, generic in the seeds; invariants over histories, induction over the nested loops; instantiated with the library's seeds")
h("C88 C89 C90", "CosWISS weightings and kernels; expansion of powers of cosine differences")
h("C91 C92 C93", "weightings; monotonicity of prefix sums, floor arithmetic")
h("C97", "congruence of every seed with taking single series, lifted through the loops of `Fruit.transform`")
h("C98 C99 C100", "`__eq__` of every class on the settings; equality is equality of a key (class and compared settings)")
h("C101", "the decorator as a function on the registry; string lemmas of C29")
h("C102", "the generic loop with arbitrary operations, interpreted in a commutative semiring; induction over the rounds")
h("C103 C104", "texts as lists of characters; unique decomposition at commas, parentheses, bars and arrows")
h("C105", "the summaries as text; splitting at line breaks, compared with a list of lines written down independently")
h("C106 C108", "C12, C95, C96 lifted through the loops of `Fruit.fit` and `Fruit.transform`; what fitting changes is shown not to matter for repeated samples; the script as a list of calls")
h("C109", "a typing of seeds by numbers of dimensions (`Typing`), proved sound for every seed class of the library, and lifted through the loops of `Fruit.fit` and `Fruit.transform`")
h("C110", "an invariant of the loops of `fit` (`KeepsLook`) on every path, also those that end with an exception")
h("C111", "a word of weight w is an extended letter of weight k followed by a word of weight w-k: permutation of duplicate-free lists; C(d+k-1,k) multisets by induction")
h("C112", "the scripts as lists of calls, evaluated by a sound list interpreter (`Conf.run_sound`); C107, C109, C111 and the distinct beginnings of the alternating words")
h("C107", "non-empty beginnings of the words of weight `w` are the words of weight at most `w`; C18, C26")
h("C113", "small-step semantics of threads with an arbitrary schedule; invariant: an iteration only touches its own part of the array, so it computes what it computes alone")
h("C114", "the shape of the output is the number of groups made by `fit`; floor and ceiling of the bound")
h("C115", "C77 and C109")
h("C116", "np.quantile as linear interpolation of the sorted values; counting of values at most / at least the quantile")
h("C117", "case analysis of the constructor; C67's fit succeeds for probabilities")
h("C118 C119 C120", "array loops; invariant of the stuttering loop: the part filled so far is a time warp of the series; C106")
h("C121 C122", "index arithmetic of slices, roll and reshape in Fortran order")
h("C123 C124", "induction over the places visited / over the classes")
h("C125 C126", "induction over the nested loops: a loop with countdown finds the c-th element of the list of all places")
h("C127 C128 C129", "the events of `transform` (C82) are replayed on the callback; C73 and C75 give values and labels")
h("C130", "induction over histories of the analyser; case analysis of `transform_all`")
h("C131 C132", "loop invariant of the collected labels: no duplicates, in order of appearance")
h("C133", "the text parser is inverted on lines joined by the separator")
h("C134", "small-step semantics of processes and files with arbitrary schedules and crashes; invariant: a complete cache file has the content of the arff files")
h("C135", "properties of sorting and filtering")
h("C136 C137 C139", "C77: after any fits a new fit forgets them; induction over runs, splits, choices and datasets")
h("C138", "arithmetic of ceilings; every class has two samples")
h("C140", "case analysis")
h("C141", "closed forms of C01 and C02; a series as long as the word isolates one monomial, and one entry 2 isolates one exponent")
h("C142", "case analysis on the kinds of words")
h("C143", "specification of means, maxima and minima by sums and IsGreatest/IsLeast; induction over the classes")
h("C144", "every number between first and last edge lies in exactly one interval; induction over the groups")
h("C145", "induction over the test cases; specification of the first maximum")
h("C146", "induction on the length of the word: splitting the outermost sum (maximum) at the cut")
h("C147", "letter values agree; the kernels depend on the letter values only (closed forms of the kernels)")
h("C148", "induction over the arguments; frames of the calls (C79, C87)")
h("C149", "bounds-checked copies of the kernels (Verif/Checked.lean), loop invariants on lengths and, for argmax, on the positions; converse by running into the failing letter")
h("C150", "bounds-checked copies (Verif/Checked2.lean); the fitted arrays have the sizes the loops need (groupSizes sums to the dimensions, draws within range)")
h("C151", "bounds-checked copies; loop invariant on lengths, lengths of the rows of _get_weightings, range of the dropped indices")
h("C152", "bounds-checked copies (Verif/Checked3.lean); j*K+k < J*K, one row of cuts per series")
h("C153", "invariant `computed value is within (1+u)^k - 1 of the exact one, relative to the value for absolute data` through every loop of the kernels (NearV)")
h("C154", "the rounded kernels as a recursion over the letters; relation `same function tabulated to different lengths`; monotone rounding, idempotence for the accumulators")
h("C155", "the cache as the rounded accumulator of rounded terms (accum_near), monotone rounding, idempotence")
h("C156", "adding a rounded zero to a machine number changes nothing; relation `value at t of the warped series is the value at phi(t)` through the kernels")
h("C157", "u < 1, so rounding keeps signs; rounding of 0 and 1 is exact")
h("C158", "closed form of the rounded NRM; monotone rounding, signs kept, x/x = 1")
h("C159", "closed forms of the generic kernels (sums over increasing tuples, maxima over weak chains) and the tuple bijections of C12 and C95; counterexample for Bayesian")
h("C160", "symbolic execution; every rewrite keeps the exact value, the value for absolute data and does not raise the number of roundings per product (Rw.sound); induction over evaluations (Ev.near, Ev.exact); invariants of the kernels as in C153")
h("C161", "closed forms of the kernels (KernelLemmas); a monotone function commutes with running maxima and exp turns sums into products")
h("C162", "closed forms of the kernels; chains of maxima move by at most the sum of the letter changes; products of k bounded factors (Degree); number of increasing tuples is a binomial coefficient")
h("C163", "bijection of the index tuples i -> n-1-i in opposite order on the closed forms C01, C02, C03")
h("C164", "typed arrays (DType.lean): structural recursion over preparateurs; the values of shifting and dropping preparateurs are values of the input or zero; closed form of NRM")
h("C165", "state-passing model of assignments to arrays (Memory.lean), refinement of the value model: old objects are kept, induction over preparateurs, rounds of INC and sequences")
h("C166", "equivariance lemmas for all list functions under x -> c*x (order, quantiles, coquantiles, cumulative sums), seed by seed; for fruits a simulation between the two runs: the worlds differ only in what the leading preparateurs have learned")
h("C167", "two runs in lockstep: the prepared data and every iterated sum of one run are a permutation of those of the other (from the locality of C97), sums and sorted lists do not see it, so each seed learns the same; counterexample by evaluation")
h("C168", "relation between data sets (row plus a constant), lemma for every list function; the cache is a function of increments; two runs in lockstep until the preparateur that removes the constants, equal afterwards")
h("C169", "the kernels of Semiring.lean, which need only the operations they use, are executed on numbers with NaN; simulation with the exact run that tracks the set of spoiled times (Reals), chained running maxima with a maximum that skips NaN on the right (Arctic, Bayesian)")
h("C170", "the sieves are modelled a second time on numbers with NaN (MissingSieve.lean); a missing value lies in no band, hence filters, sums and runs are those over the set of times with known values in the band; refinement theorem to Sieve.lean without missing values; sorting with NaN last for the fitted quantiles")
h("C171", "the row functions of Prep.lean run unchanged on numbers with NaN (MissingPrep.lean; they need only the operations they use); a simulation relation between the two models (entry by entry: equal, or NaN) is carried through every preparateur by induction, with no NaN it gives agreement, with any it gives soundness; a second relation (same shape, same series i) gives locality")
h("C172", "composition of the models with NaN (MissingFruit.lean): the relation of C171 (same shape, same series i) is carried through the chain of preparateurs, the iterated sums of series i are computed from it alone, C170_other_series gives the columns of every sieve; induction over sieves, iterated sums and slices")
