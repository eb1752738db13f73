# Formal model of irkri/fruits in Lean 4

This file is written by `tools/mkdesign.py` from `tools/design_head.md` (sections 1–5), `properties.jsonl`,
`MANIFEST.json` and the output of `#print axioms` (section 6).

## 1. Shape of the model

The model lives in `lean/Verif/*.lean`; the theorems that the manifest claims are in `lean/Verif/Props/*.lean`.
It is a shallow, branch-by-branch model: every Python function becomes a total computable Lean function over lists and
plain structures, exceptions become `Except Err`, mutation becomes a returned new state (a heap of cells with addresses
where objects are shared), loops become folds or structural recursion, and a Python loop that need not terminate takes
fuel and its non-termination is stated separately. Every definition carries a comment that cites the file and the lines
in `/repo` and says what it simplifies. `python3 tools/coverage.py` lists the functions of `/repo` without a citation.

| module | models |
|---|---|
| `Np`, `Arr`, `Py` | the numpy primitives the code uses (cumsum, roll, slices with clipping, sort, quantile, searchsorted…), three-dimensional arrays, exceptions and strings |
| `Semiring`, `ISS` | `iss/semiring.py` (all numba kernels line by line, generic `Word` path, argmax), `iss/iss.py` |
| `CachePlan` | `iss/cache.py` |
| `Word`, `WordOps`, `Objects` | `iss/words/{word,letters,creation}.py`: parsing, printing, algebra, `of_weight`, registry; object identity and iterator cursors |
| `Cache` | `cache.py` (`SharedSeedCache`, coquantiles), `seed.py` |
| `Prep`, `PrepFit` | all classes of `preparation/{transform,filter,wrapper}.py`: settings, fit, transform, copy |
| `Sieve` | all classes of `sieving/{segment,increment,implicit,wrapper}.py` |
| `Weighting`, `CosWISS` | `iss/weighting.py`, `iss/cos.py` |
| `Fruit` | `fruit.py`, `callback.py`: heap of seeds, slices and fruits, all public methods as steps of a state machine; generic in the meaning `Sem` of the seeds |
| `Builtin` | the library's own seeds as an instance of `Sem` |
| `Equality` | `__eq__` of preparateurs and words (`preparation/*.py`, `word.py`) |
| `UserCode` | user-defined letters (`letter` decorator) and semirings |
| `Texts`, `Summary` | `str`, `label` and `summary` of preparateurs, sieves, slices and fruits |
| `Spec` | *not* a model: the independent specification (iterated sums as sums over index tuples, monomials, chains, time warping…) |

## 2. Trusted base

* Lean 4.33.0's kernel; Mathlib's definitions used in statements (`List`, `Finset.sum`, fields, `IsGreatest`, …).
* Axioms: only `propext`, `Classical.choice`, `Quot.sound`; the table in section 6 gives them for each theorem. No
  axiom, `sorry`-like placeholder, `native_decide` or `bv_decide` occurs.
* The reading of the Python source recorded in the citations (the code is not run here), and the semantics of numpy
  primitives as written in `Np.lean`/`Arr.lean`.
* The specification in `Spec.lean` and the statements of the theorems.

## 3. Simplifications and what is not modelled

* **Numbers.** `float64` is an arbitrary linearly ordered field, with `FloorRing` where the code calls `int`/`floor`.
  Exception: C153 and later properties marked so use a second model with a rounding after every operation (`Verif/Rounded*.lean`:
  any monotone rounding with relative error `u`, e.g. `p+1` significant bits with unbounded exponent). In that
  model the operations are those of the source, in their order; C160 lifts this for the iterated sums (`Verif/FastMath.lean`: `fastmath`
  re-association, contraction, reciprocals, factoring out). Overflow, underflow, `float32` frequencies and `int32` overflow are not modelled. `±inf` is modelled
  for quantile boundaries of sieves (`WithBot (WithTop R)`), NaN/inf for `nan_to_num` (`Fl R`), NaN in the iterated sums
  of C169 (`Verif/Missing.lean`, `Mv R`), NaN in the sieves of C170 (`Verif/MissingSieve.lean`),
  NaN in the preparateurs of C171 (`Verif/MissingPrep.lean`; not FFN, RIN, RDW, JLD, SPE, RPE, FUN) and in the fruits of C172 (`Verif/MissingFruit.lean`), truncation of integer arrays
  where it matters (`Indices(relative=False)`, `NEW`). `exp`, `sin`, `cos`, `sqrt`, `pow`, `log`, `π` are parameters with
  the laws used as hypotheses (`ExpLike`, `SqrtLaw`, `TrigLaw`, `CosLaw`); examples instantiate them with Mathlib's real
  functions. Division by zero is excluded by hypotheses in the statements.
* **Arrays.** Lists of lists; rectangular shape is a hypothesis. The code reads the shape of the data from the first
  series, datasets have at least one series and one dimension.
* **Parallelism.** The functions are modelled sequentially; C113 proves for every `prange` loop that any interleaving of its
  iterations, one read or write of a number at a time, gives the same array. Trusted: sequentially consistent memory.
* **Arrays are values**, except in `Verif/Memory.lean` (C165), where they are objects that assignments change. Integer arrays: only in `Verif/DType.lean` (C164).
* **Randomness.** Any generator `Rng` whose draws have the documented range (`Valid`); state is a counter, so a theorem
  quantifies over every sequence of draws. Rejection loops take fuel.
* **`set` iteration order.** Any permutation of the deduplicated list.
* **Cache.** Proved (C35) that a shared cache answers like a fresh one for the same input; the model of `Fruit` uses that.
* **Text of numbers** (`str(float)`) is a parameter `FloatText`, injective where needed. `T.Lawful` (injectivity of the
  printed text into strings) restricts `R` to countable fields, which is the case for `float64`; `ratText` is an instance.
* **Callbacks** do not raise or mutate the fruit. A seed whose `fit` fails is left unchanged in the model.
* **User code** (`FUN`, user letters, user weightings transforms, custom shift functions) is an arbitrary pure function;
  `FUN` keeps the number of series.
* Not modelled: `experiments/` (except `fruit_twi.py`, `fruit_general.py`, `fruit_reduced.py`, as the lists of their calls, and the parts of `corbeille` named in the comments of `CorbData.lean`, `CorbTools.lean`, `CorbLoad.lean` and `CorbChoose.lean`), `tests/`, `fruits/__init__` re-exports, deprecation warnings, printing to
  a terminal, numba compilation and its errors, out-of-bounds reads in compiled code (they raise in the model).

## 4. How properties that are false of the code are treated

If the code does not have a property (57 of the list), the negation is proved with a concrete witness
(`…_counterexample` or a named theorem) and the largest part that is true is proved as `…_partial`; the manifest says `partial`.

## 5. Findings: places where the code differs from its documentation

Those marked (P) are proved in the model.

1. `FruitSlice.copy()` drops `fit_sample_size` (P); `STD._copy` drops `std_eps` (P); segment/increment sieves' `_copy` drop
   `coquantile_norm`, and `fit` works on copies (P); copies of some PPV/CPV raise or mix up their constants (P).
2. Sieves `AVG` and `STD` run `CUR._backend` (P). Sieve `INC` ignores its depth (P). `CPV` misses a strip that starts at index 0 (P).
   `END` returns `len(cut)` columns while `nfeatures` counts `len(cut)*(len(q)-1)` (P); cut 0 gives the last value (P).
   `MAX`/`MIN` raise on an empty band. Labels of sieves use the unsorted cuts/quantiles (P).
3. `MAV(-1)` always raises (P). `INC` with float shift and `zero_padding=False` raises (P). `PDD()` is the identity for n ≥ 3 (P).
   `DIL` with more clusters than implemented → IndexError. `RIN` reads `X[i,j]` instead of `X[i,dims[j]]` (P), `force_sum_one` leaves [-1,1] (P),
   `RIN()` has the zero kernel (P). `JLD` adds its bias once per input dimension.
4. `_calculate_ISS` with `batch_size=0` never ends (P). `CachePlan` identifies words by their string and ignores `alpha` (P).
   The argmax mode counts rows wrongly in labels; weighted argmax ignores the weights; SINGLE argmax raises (P).
5. `Word.copy` and `SimpleWord.copy` lose `alpha` (P); `multiply` after setting `alpha` leaves a wrong length (P).
   `alternate_sign` is wrong from dimension 10 (P). `of_weight(0)` raises (P). `replace_letters` drops negative exponents (P). Letter 0 breaks
   products (P). Iterators keep their cursor on the object, so nested loops break (P). `word.multiply(word)` never ends.
   `letter(f, name="X")` registers nothing and returns a decorator (P).
6. The Bayesian semiring is strict for general words and non-strict for simple words (P). Weightings are ignored for general words (P).
7. `Seed.fit/transform` leave a stale cache when they raise (P). In `FruitSlice.fit` the cache is built from all series but used
   with the sampled ones (P). The samples of `fit_sample_size` ≥ 2 raise (P).
8. A failed `fit` leaves the flags of the previous fit: `transform` returns a mixture (P). `on_sieve` gets rows instead of columns (P).
   `ISS.copy` shares the list of words (P). `Fruit.label` out of range raises IndexError, negative RuntimeError (P).
9. `CosWISS._get_weightings` uses only the first digit of binomial coefficients, so it is wrong from exponent 5 on (P).
   Unfitted with `ffn_size`/`dropout` → AttributeError; words added after fit → IndexError.
10. `Indices(relative=False)` is `[0,…,0,scale]` because `NRM` truncates an integer array (P).
11. `==` of preparateurs: base class always False (`DIL`, `FFN`, `DIM`, `NEW` are not equal to themselves) (P), `WIN`/`DOT`/`PDD` raise
    for other types (P), `STD` ignores `std_eps` (P), `1 == 1.0` makes `INC(1) == INC(1.0)` although they behave differently (P).
12. The text of `STD` hides `std_eps` (P). All features of a `PPV`/`CPV` have the same label (P). The summary of a slice without
    ISS has a line of 76 characters and an empty one (P).
13. `SPE(step_transform=…)` broadcasts the cached steps of all series: in a slice fitted on a sample of one series the sample silently becomes
    all training series during `fit`, other sample sizes raise. A `CosWISS` with `ffn_size` that is not the first ISS of its slice is fitted on the prepared
    dimensions but applied to one. `CosWISS(dropout=…)` writes the dropped time steps without a check if the series are shorter than those of `fit`.
    `MAX`/`MIN` with quantiles raise if a band is empty; a copy of `PPV(segments=True)` can pair a quantile with the wrong `constant` flag, after which `fit` raises.
14. `JLD(f)` for a float `f` produces ⌊bound⌋+1 dimensions, so one more than its documented ceiling when the bound is an integer, e.g. for one
    input dimension (P).
15. `PPV(2.0)` is accepted but can never be fitted (P); `PPV(segments=True)` with mixed flags pairs them with the wrong quantiles (P).
    `CUR(q=…)` learns quantiles of the series but applies them to second increments.
16. Experiments package (`corbeille.data`): `downsample(X, r)` keeps every ⌊1/r⌋-th value instead of removing the share `r` (P); `upsample` mixes up
    the dimensions of multivariate series (P); `implant_stuttering` stutters the dimensions of a series independently, so it is no time
    warp for several dimensions (P); `replace_nan(X, value)` also replaces infinite values (P).
17. `Fruit.label(i, "prepared")` counts preparateurs instead of slices (P), so `Fruitalyser.plot("prepared", i)` has the wrong title or raises (P);
    `split_index` raises a `TypeError` for a slice without ISS (P); after a `transform_all` that raises, `classify` mixes the training
    features of the new fit with the test features of the old one (P).
18. The cache of `load` is neither crash safe nor safe for several processes: after a stop between two of its four files every `load` with `cache=True`
    raises a `FileNotFoundError` (P); `load` raises an `IndexError` for a text file with a single series (P); records of an `.arff` file with one
    dimension are silently repeated (P).
19. `decide_which_fruit` asks for an impossible stratified split if `validation_size > 1 - classes/samples` (P), against its documentation (and, in
    `sklearn`, a possible stratified split need not have a representative of every class in the smaller part; not modelled); `fruitify_all` called three times
    within a second overwrites a result file (P).
20. `Word == Word` is always False, even for a word and itself, and `Word == SimpleWord` raises (P); `SimpleWord("[1]")` and `SimpleWord("[12-2]")` are
    unequal with the same iterated sums (P); over the arctic semiring `[1][1]` and `[11]` are the same feature twice (P).
21. `Fruitalyser.plot` numbers the classes in its legend, so class 0 is called `Class 1` (P); `scatter_features` does not stack the histograms of more than
    two classes (P).
22. `get_preparateurs`, `get_iss` and `get_sieves` return the internal lists: a sieve appended to the list of a fitted slice is counted by
    `nfeatures` and never applied, so `transform` returns columns of zeros without an error (P).
23. The compiled kernels do not check indices and `ISS` does not check its words: a letter beyond the dimensions of the data, or a word whose `alpha` was
    set before the last `multiply`, makes them read foreign memory (P). So do `RIN` and `JLD` on data with fewer dimensions than the training data, and
    `CosWISS` with dropout writes outside an array on series shorter than the training series (P).
24. `NRM` on an integer array returns only zeros and ones (`np.zeros_like(X)`), `NEW(p)` truncates the results of `p` to integers; no error is raised (P).
    Everything that is compiled by numba raises a `TypeError` for integer arrays.
25. With `fit_sample_size=1.0` the order of the training series matters for slices with `WIN`, `SPE(step_transform)` or an L1/L2 weighting of the raw data: the
    sample is a random permutation of the series, the cache is not permuted with it (P).
26. NaN in the first value of a dimension makes all `Arctic` sums NaN of every word that names a higher dimension, also if the word does not name this one
    (`0 * nan` is added) (P). The compiled `Reals` kernel returns NaN for `[1][2]` if the first value of dimension 2 is NaN, although no term of the
    sum uses it; the generic kernel returns numbers (P). `Arctic` and `Bayesian` silently skip later NaNs in the
    compiled kernels, but not for words with arbitrary letters (P).
27. One NaN in the data a sieve is fitted to makes all quantiles that need data NaN, for all series: `np.sort` moves them behind infinity, the bands
    change, and increment sieves, `PPV` and `CPV` return 0 for them (P). `MAX` and `MIN` raise for the whole dataset if one segment has only NaNs (P), and a
    float cut of a series with a NaN becomes 0 (P).
28. `STD(separately=False)` fitted to data with one NaN turns every dataset into NaNs, `QTC` fitted to such data leaves every dataset unchanged, and
    `WIN` replaces a series with a NaN in its first dimension by zeros, the NaN included (P).
## 6. Properties, plan and theorems

`p`, `c`, `q` after a theorem are the axioms it rests on (`propext`, `Classical.choice`, `Quot.sound`); the module is in `lean/Verif/`. *How*: what is modelled and how it is proved.

### C01 Reals ISS is the strict iterated sum — proved

ISS([w]).transform(X) with the default semiring, for a SimpleWord w with p extended letters, returns at time t exactly the sum over all i_1<...<i_p<=t of the product of the letter monomials X[.,i_1],...,X[.,i_p].

*How*: letter products and the kernels `_reals_single`/`_total_weighted_reals_single` line by line; induction over extended letters, each kernel step is the inner sum over strictly increasing tuples

* `Fruits.C01_reals_iss` (Props/IteratedSums; pcq)

### C02 Arctic ISS is the max-plus iterated sum — proved

With semiring=Arctic() the value at time t is the maximum over all i_1<=...<=i_p<=t of the sum of the letter values, and that maximum is attained.

*How*: Arctic kernels; generic running-maximum chain lemma, `IsGreatest` of the set of candidate values

* `Fruits.C02_arctic_iss` (Props/IteratedSums; pcq)

### C03 Bayesian ISS is the max-times iterated sum — proved

With semiring=Bayesian() on non-negative data the value at time t is the maximum over all i_1<=...<=i_p<=t of the product of the letter monomials, and it is attained.

*How*: Bayesian kernels; the same chain lemma with multiplication by non-negative values

* `Fruits.C03_bayesian_iss` (Props/IteratedSums; pcq)

### C04 Weighted Reals ISS — proved

With a Weighting whose lookup is g, each summand of the iterated sum is multiplied by prod_j exp(alpha_j*(g(i_j)-g(i_{j+1}))), and with total=True additionally by exp(alpha_p*(g(i_p)-g(t))).

*How*: the weighted kernels; as C01 with the exponents of the weights telescoping

* `Fruits.C04_weighted_reals` (Props/IteratedSums; pcq)

### C05 Weighted Arctic ISS — proved

With a Weighting in the Arctic semiring each candidate sum is increased by sum_j alpha_j*(g(i_j)-g(i_{j+1})) (plus alpha_p*(g(i_p)-g(t)) when total) and the value at t is the attained maximum.

*How*: Arctic kernels; generic running-maximum chain lemma, `IsGreatest` of the set of candidate values

* `Fruits.C05_weighted_arctic` (Props/IteratedSums; pcq)

### C06 Weighted Bayesian ISS — proved

With a Weighting in the Bayesian semiring on non-negative data each candidate product is multiplied by prod_j exp(alpha_j*(g(i_j)-g(i_{j+1}))) (and exp(alpha_p*(g(i_p)-g(t))) when total) and the value at t is the attained maximum.

*How*: Bayesian kernels; the same chain lemma with multiplication by non-negative values

* `Fruits.C06_weighted_bayesian` (Props/IteratedSums; pcq)

### C07 Extended rows are the prefixes — proved

When a semiring is asked for the last m iterated sums of a word with p>=m extended letters it returns m rows and row r is exactly the result for the prefix of length p-m+r+1 taken as a word of its own (with the corresponding prefix of alpha).

*How*: the `extended` argument of the kernels; row r is the last row of the kernel on the prefix

* `Fruits.C07_rows_are_prefixes` (Props/Kernels; pcq)

### C08 The plain and the total-weighted kernels agree without weighting — proved

Without a weighting the library silently uses the 'total' kernel with zero weights; the other kernel would give the same values.

*How*: both kernels equal the specification at zero weights

* `Fruits.C08_plain_eq_total` (Props/Kernels; pcq)

### C09 Words of DIM letters equal simple words — partial

A general Word whose letters are DIM(d) gives the same iterated sums as the SimpleWord with the same letters, in every semiring.

*How*: the generic `Word` path of the three semirings; closed forms by induction over letters and time

* `Fruits.C09_dim_words_partial` (Props/General; pcq)
* `Fruits.C09_bayesian_counterexample` (Props/General; pcq)

*Note*: False for the Bayesian semiring with two or more extended letters (proved counterexample): the Word path is strict, the SimpleWord path is not. Proved for Reals and Arctic, and Bayesian words with one extended letter, SINGLE mode.

### C10 Causality of the ISS — proved

The iterated sum at time t depends only on X up to time t: transforming a truncated series gives the truncated result (no weighting).

*How*: from the closed forms and by induction on `take`

* `Fruits.C10_causal` (Props/General; pcq)
* `Fruits.dim_causal` (Props/General; p)
* `Fruits.abs_causal` (Props/General; pq)

*Note*: General words: the letters must be causal themselves (DIM and ABS are). Arctic(argmax=True) has another output format and is treated in the argmax properties.

### C11 Quasi-shuffle identity — proved

The product of two Reals iterated sums equals the sum of the iterated sums over the quasi-shuffle of the two words, at every time step.

*How*: quasi-shuffle of letter lists defined recursively; induction over both words and time

* `Fruits.C11_quasi_shuffle` (Props/Algebra; pcq)

### C12 Time-warping invariance of INC -> ISS -> END — proved

Repeating time points of a series (stuttering) does not change the final value of the Reals iterated sums of its increments.

*How*: time warping as a monotone surjection of index ranges (repeat counts); zero increments do not change running sums, repeated samples do not change running maxima, sieves are counted band by band

* `Fruits.C12_time_warping` (Props/Warp2; pcq)
* `Fruits.C12_pipeline` (Props/Warp2; pcq)
* `Fruits.C12_iterated_sums` (Props/Warp; pcq)
* `Fruits.C12_end` (Props/Warp2; pcq)
* `Fruits.C12_weighting` (Props/Warp; pcq)

*Note*: Also with raw L1/L2 weightings and with every warp-invariant sieve (C96). The shape of the data is read from the first series, so at least one series and dimension.

### C13 Homogeneity of the ISS — proved

Scaling the series by c scales the Reals iterated sum of a word of weight w by c**w, and shifts nothing else; in the Arctic semiring scaling by c>=0 scales the value by c.

*How*: from the closed forms

* `Fruits.C13_homogeneous_reals` (Props/Algebra; pcq)
* `Fruits.C13_homogeneous_arctic` (Props/Algebra; pcq)

### C14 Running semirings are monotone in time — proved

Without weighting, Arctic and Bayesian iterated sums never decrease over time, and Reals iterated sums of even words (all exponents even) never decrease.

*How*: from the closed forms

* `Fruits.C14_monotone_arctic` (Props/Algebra; pcq)
* `Fruits.C14_monotone_bayesian` (Props/Algebra; pcq)
* `Fruits.C14_monotone_reals` (Props/Algebra; pcq)

### C15 Arctic argmax positions are a maximising tuple — proved

With Arctic(argmax=True) and no weighting, the final column of the position rows belonging to the prefix of length k is an index tuple i_1<=...<=i_k that attains the returned maximum at the last time step.

*How*: the argmax kernel; loop invariant that stored positions attain the running maximum, then the backtracking loop

* `Fruits.C15_argmax` (Props/Argmax; pcq)

*Note*: EXTENDED mode (SINGLE raises, C16). The row layout is part of the statement.

### C16 Batch size does not matter — proved

Concatenating the arrays yielded by ISS.batch_transform(X, b) gives the array of ISS.transform(X) for every b with 1<=b<=len(words), and there are ceil(len(words)/b) batches.

*How*: `_calculate_ISS`, `CachePlan` and the `ISS` class; list induction, invariant of the plan

* `Fruits.C16_batches` (Props/Plan; pcq)
* `Fruits.C16_too_large` (Props/Plan; pq)
* `Fruits.C16_zero_never_ends` (Props/Plan; pq)
* `Fruits.C16_argmax_single` (Props/Plan; pq)

### C17 n_iterated_sums is the number of returned arrays — proved

ISS.n_iterated_sums() equals the first axis of ISS.transform(X), in SINGLE and EXTENDED mode, and for Arctic(argmax=True) in EXTENDED mode.

*How*: `_calculate_ISS`, `CachePlan` and the `ISS` class; list induction, invariant of the plan

* `Fruits.C17_count` (Props/Plan; pcq)

### C18 EXTENDED mode yields every distinct prefix exactly once — proved

In EXTENDED mode the labels of the returned iterated sums are exactly the distinct non-empty prefixes of the given words, each exactly once; the cache plan's get_word_index(i) is the first word beginning with the i-th label and raises IndexError exactly if there is none.

*How*: `_calculate_ISS`, `CachePlan` and the `ISS` class; list induction, invariant of the plan

* `Fruits.C18_labels_are_prefixes` (Props/Plan; pcq)
* `Fruits.C18_word_index` (Props/Plan2; pcq)
* `Fruits.C18_unique_depth` (Props/Plan2; pcq)

### C19 EXTENDED mode equals SINGLE mode on the prefixes — proved

The array returned in EXTENDED mode is the array SINGLE mode returns for the list of prefix words named by the labels, in the same order.

*How*: `_calculate_ISS`, `CachePlan` and the `ISS` class; list induction, invariant of the plan

* `Fruits.C19_extended_eq_single` (Props/Plan; pcq)

### C20 ISS labels name the row — proved

ISS.label(i) is the string of the word (SINGLE) or prefix (EXTENDED) whose iterated sum is row i of the transform; for i >= n_iterated_sums() it raises an IndexError.

*How*: `_calculate_ISS`, `CachePlan` and the `ISS` class; list induction, invariant of the plan

* `Fruits.C20_label_names_row_single` (Props/Plan; pcq)
* `Fruits.C20_label_names_row_extended` (Props/Plan; pcq)
* `Fruits.C18_labels_are_prefixes` (Props/Plan; pcq)

### C21 Weighted EXTENDED mode respects each word's alpha — partial

With a weighting, the EXTENDED results for a word's prefixes use that word's alpha, also when another word with the same string but a different alpha is given.

*How*: `_calculate_ISS`, `CachePlan` and the `ISS` class; list induction, invariant of the plan

* `Fruits.C21_weighted_extended_partial` (Props/Plan; pcq)
* `Fruits.C21_counterexample` (Props/Plan; pcq)

*Note*: False in general (proved counterexample): CachePlan identifies words by their string, so a second word with the same string and another alpha is dropped. Proved when equal beginnings carry equal alphas.

### C22 Series are processed independently — proved

Row j of every iterated sum depends only on series j of X: transform(X)[:, j] = transform(X[j:j+1])[:, 0], for any permutation or selection of series.

*How*: `_calculate_ISS`, `CachePlan` and the `ISS` class; list induction, invariant of the plan

* `Fruits.C22_series_independent` (Props/General; pcq)

### C23 SimpleWord accepts exactly its grammar — proved

SimpleWord(s) succeeds only for strings of the documented form, and on every such string with non-zero letters it stores for each extended letter the signed number of occurrences of each dimension, padded to the highest dimension.

*How*: the regular expression as an automaton and `_add_letters`; inductive grammar, equivalence with the automaton, string lemmas

* `Fruits.C23_accepts` (Props/Words; pcq)
* `Fruits.C23_content` (Props/Words; pcq)

### C24 SimpleWord equality is permutation invariance — proved

Two SimpleWords with positive letters are equal iff they have the same number of extended letters, the same highest dimension and letter-wise the same multiset of dimensions; in particular permuting letters inside brackets never matters.

*How*: the regular expression as an automaton and `_add_letters`; inductive grammar, equivalence with the automaton, string lemmas

* `Fruits.C24_permuting` (Props/Words; pcq)
* `Fruits.C24_equality` (Props/Words; pcq)

### C25 Multiplying words is concatenation — proved

For strings s,t with non-zero letters, SimpleWord(s) multiplied by t equals SimpleWord(s+t), so multiplication is associative on strings.

*How*: the regular expression as an automaton and `_add_letters`; inductive grammar, equivalence with the automaton, string lemmas

* `Fruits.C25_multiply` (Props/Words; pcq)
* `Fruits.C25_associative` (Props/Words; pcq)
* `Fruits.C25_zero_letter_counterexample` (Props/Words; pcq)

*Note*: For words whose letters are non-zero (a letter 0 is proved to break the homomorphism).

### C26 of_weight lists every word of the weight exactly once — proved

of_weight(w, dim) contains, up to order, every word of weight w over dimensions 1..dim exactly once.

*How*: `of_weight` and its enumerations; bijection with compositions filled by multisets, stars and bars

* `Fruits.C26_of_weight` (Props/Words; pcq)
* `Fruits.C26_weight_zero` (Props/Words; pcq)

### C27 of_weight counts — proved

len(of_weight(w, 1)) = 2**(w-1) for all w>=1.

*How*: `of_weight` and its enumerations; bijection with compositions filled by multisets, stars and bars

* `Fruits.C27_count` (Props/Words; pcq)

### C28 alternate_sign alternates the signs — partial

alternate_sign(words) returns for every simple word with positive letters two words: the letters with even position negated resp. the letters with odd position negated.

*How*: `alternate_sign` on strings

* `Fruits.C28_alternate_sign_partial` (Props/Words2; pcq)
* `Fruits.C28_counterexample` (Props/Words2; pcq)

*Note*: False for words with a letter >= 10 (proved counterexample: the sign is inserted per digit). Proved for letters 1..9.

### C29 Word strings round-trip — proved

str(Word(str(w))) = str(w) and Word(str(w)) has the same letters as w, for every word built from registered letters whose names contain no brackets.

*How*: the regular expression as an automaton and `_add_letters`; inductive grammar, equivalence with the automaton, string lemmas

* `Fruits.C29_roundtrip` (Props/Words2; pcq)

### C30 Letter registry is append-only — proved

Registering a letter under a free name makes exactly this name available; registering a used name raises and changes nothing; no history of registrations changes what an already registered name refers to.

*How*: words and letters as heap objects, registry as a state machine; invariants over histories, iteration with the shared cursor

* `Fruits.C30_registry` (Props/Words2; pcq)

### C31 Copying a word preserves it — partial

Word.copy()/SimpleWord.copy() gives a word with the same letters, string and alpha, independent of the original.

*How*: words and letters as heap objects, registry as a state machine; invariants over histories, iteration with the shared cursor

* `Fruits.C31_word_copy_partial` (Props/Words3; pcq)
* `Fruits.C31_alpha_counterexample` (Props/Words3; pq)
* `Fruits.C31_simple_copy_partial` (Props/Words3; pcq)
* `Fruits.C31_simple_independent` (Props/Words3; pcq)
* `Fruits.C31_simple_alpha_counterexample` (Props/Words3; pcq)

*Note*: False for a word with an assigned alpha: copy() loses it (proved counterexamples). Everything else of the copy is proved equal and independent.

### C32 alpha always matches the word length — partial

For every sequence of multiply and alpha assignments, word.alpha has exactly len(word) entries.

*How*: words and letters as heap objects, registry as a state machine; invariants over histories, iteration with the shared cursor

* `Fruits.C32_alpha_length_partial` (Props/Words3; pcq)
* `Fruits.C32_counterexample` (Props/Words3; pcq)

*Note*: False after multiply() following an alpha assignment (proved counterexample). Proved as an iff over all histories.

### C33 Iterating a word or fruit visits every element — partial

A for-loop over a Word, ExtendedLetter or Fruit visits all elements in order, also when loops over the same object are nested or a loop was abandoned before.

*How*: words and letters as heap objects, registry as a state machine; invariants over histories, iteration with the shared cursor

* `Fruits.C33_iteration_partial` (Props/Words3; pq)
* `Fruits.C33_nested_counterexample` (Props/Words3; pcq)

*Note*: False for nested loops over one object (proved counterexample: the cursor is stored on the object). Proved for loops whose body does not iterate over the same object, after any abandoned loop.

### C34 replace_letters keeps the shape of the word — proved

replace_letters(w, gen) yields a word with the same number of extended letters and, per extended letter, the same dimensions, using the generated names in order and DIM after the generator is exhausted.

*How*: the regular expression as an automaton and `_add_letters`; inductive grammar, equivalence with the automaton, string lemmas

* `Fruits.C34_replace_letters` (Props/Words2; pcq)
* `Fruits.C34_negative_exponents` (Props/Words2; pcq)

### C35 The shared cache is transparent — proved

SharedSeedCache(X).get(type, key) returns the directly computed value for X for every history of previous get calls, whatever X arguments they were given; unknown keys raise.

*How*: `SharedSeedCache` and `Seed.fit/transform` with the attached cache; invariants over histories of calls

* `Fruits.C35_history` (Props/CacheProps; pcq)
* `Fruits.C35_coquantile` (Props/CacheProps; pcq)
* `Fruits.C35_iss` (Props/CacheProps; pcq)
* `Fruits.C35_coquantile_two` (Props/CacheDims; pcq)
* `Fruits.C35_iss_two` (Props/CacheDims; pcq)
* `Fruits.C35_iss_one` (Props/CacheDims; pcq)
* `Fruits.C35_given` (Props/CacheDims; pcq)
* `Fruits.C35_unknown_key` (Props/CacheProps; pcq)

### C36 A cache without input is fixed by the first request — proved

For SharedSeedCache() the value of a key is computed from the X of the first successful request for that key and never changes afterwards.

*How*: `SharedSeedCache` and `Seed.fit/transform` with the attached cache; invariants over histories of calls

* `Fruits.C36_first_request_wins` (Props/CacheProps; pcq)

### C37 Coquantiles are monotone cut points — proved

The q-coquantile is between 1 and the series length for 0<=q<=1, monotone in q, equals the length for q=1, and index i lies before it iff the normed variation up to i is at most q times the total.

*How*: `SharedSeedCache` and `Seed.fit/transform` with the attached cache; invariants over histories of calls

* `Fruits.C37_cut_points` (Props/CacheProps; pcq)
* `Fruits.C37_monotone` (Props/CacheProps; pcq)

### C38 Stand-alone seeds leave no cache behind — partial

seed.fit / seed.transform called on a seed without a cache leave it without a cache, also when the call raises; so later calls never see data of earlier ones.

*How*: `SharedSeedCache` and `Seed.fit/transform` with the attached cache; invariants over histories of calls

* `Fruits.C38_no_cache_left_partial` (Props/CacheProps; pq)
* `Fruits.C38_counterexample` (Props/CacheProps; pcq)

*Note*: False when the call raises (proved counterexample: no try/finally, the temporary cache stays). Proved for calls that succeed.

### C39 INC computes shifted increments — proved

INC(shift=s, depth=1) returns 0 (or the original value without zero padding) for t<s and x_t-x_{t-s} for t>=s; depth=d applies this d times.

*How*: `_fit/_transform` of the preparateurs on lists; pointwise characterisation on the `tab` normal form

* `Fruits.C39_increments` (Props/Prep1; pcq)
* `Fruits.C39_float_and_callable` (Props/Prep1; pcq)
* `Fruits.C39_float_needs_padding` (Props/Prep1; pcq)

### C40 Increments and cumulative sums are inverse — proved

cumsum(INC(zero_padding=False)(x)) = x and cumsum(INC()(x)) = x - x_0.

*How*: `_fit/_transform` of the preparateurs on lists; pointwise characterisation on the `tab` normal form

* `Fruits.C40_cumsum` (Props/Prep1; pcq)
* `Fruits.C40_inverse` (Props/Prep1; pcq)

### C41 STD standardizes — proved

STD() returns series with mean zero; with std_eps=0 and non-constant data their variance is one; constant series become zero (eps>0).

*How*: `_fit/_transform` of the preparateurs on lists; pointwise characterisation on the `tab` normal form

* `Fruits.C41_mean_zero` (Props/Prep2; pcq)
* `Fruits.C41_variance_one` (Props/Prep2; pcq)
* `Fruits.C41_fitted` (Props/Prep2; pcq)

### C42 NRM maps to [0,1] — proved

NRM() maps every dimension into [0,1] attaining 0 and 1 when it is not constant, maps constant dimensions to 0, is idempotent and invariant under positive affine changes of a dimension.

*How*: `_fit/_transform` of the preparateurs on lists; pointwise characterisation on the `tab` normal form

* `Fruits.C42_normalises` (Props/Prep3; pcq)
* `Fruits.C42_affine_invariant` (Props/Prep3; pcq)

### C43 MAV is the trailing mean — partial

After fit, MAV(w) returns at t>=w-1 the mean of the last w values and 0 before; MAV(-1) returns the mean over dimensions.

*How*: `_fit/_transform` of the preparateurs on lists; pointwise characterisation on the `tab` normal form

* `Fruits.C43_moving_average_partial` (Props/Prep4; pcq)
* `Fruits.C43_minus_one` (Props/Prep4; pcq)

*Note*: False for width -1 (proved: transform always raises). Proved for integer widths >= 1 and floats.

### C44 LAG is the lead-lag transform — proved

LAG() of a series of length n>=1 has length 2n-1 and twice the dimensions, with lead/lag coordinates (x_{ceil(t/2)}, x_{floor(t/2)}).

*How*: `_fit/_transform` of the preparateurs on lists; pointwise characterisation on the `tab` normal form

* `Fruits.C44_lead_lag` (Props/Prep4; pcq)

### C45 CTS shifts left and repeats the last value — proved

CTS(s) with s>=1 returns y_t = x_{min(t+s, n-1)}; with pseudo_shift it zeroes exactly the first s values.

*How*: `_fit/_transform` of the preparateurs on lists; pointwise characterisation on the `tab` normal form

* `Fruits.C45_time_shift` (Props/Prep4; pcq)

### C46 QTC clips at the fitted quantile — proved

After fit, QTC(q) without bound returns min(x, quantile) (max if lower), is idempotent and monotone; with bound b exactly the cropped values become b.

*How*: `_fit/_transform` of the preparateurs on lists; pointwise characterisation on the `tab` normal form

* `Fruits.C46_quantile_cut` (Props/Prep4; pcq)
* `Fruits.C46_idempotent_monotone` (Props/Prep4; pcq)

### C47 DIL zeroes disjoint strips and nothing else — proved

After a successful fit, DIL sets exactly the values inside nclusters pairwise disjoint, non-empty strips inside the series to zero and leaves every other value unchanged.

*How*: `_fit/_transform` of the preparateurs on lists; pointwise characterisation on the `tab` normal form

* `Fruits.C47_dilation` (Props/Prep5; pcq)
* `Fruits.C47_count` (Props/Prep5; pcq)
* `Fruits.C47_fit_succeeds` (Props/Prep5; pcq)

*Note*: For every valid random source.

### C48 WIN keeps a window — proved

WIN(a,b) with 0<=a<=1 returns the series unchanged on [coq(a)-1, coq(b)) and zero elsewhere; the windows of consecutive quantiles cover the series from coq of the first on.

*How*: `_fit/_transform` of the preparateurs on lists; pointwise characterisation on the `tab` normal form

* `Fruits.C48_window` (Props/Prep5; pcq)
* `Fruits.C48_cover` (Props/Prep5; pcq)

### C49 DOT keeps every n-th point — proved

After fit, DOT(n, first) keeps x_t iff t>=first and (t-first) is a multiple of n, zero otherwise; the fitted n and first are valid indices for every length; DOT is idempotent.

*How*: `_fit/_transform` of the preparateurs on lists; pointwise characterisation on the `tab` normal form

* `Fruits.C49_dotting` (Props/Prep4; pcq)

### C50 PDD drops the requested proportion — partial

After fit, PDD(density, proportion) sets values to zero and leaves the others unchanged, and for long enough series it drops a positive number of values.

*How*: `_fit/_transform` of the preparateurs on lists; pointwise characterisation on the `tab` normal form

* `Fruits.C50_drop_partial` (Props/Prep6; pcq)
* `Fruits.C50_counterexample` (Props/Prep6; pcq)
* `Fruits.C50_default_identity` (Props/Prep6; pcq)

*Note*: The closed form holds; the default settings do not drop the stated share of time points, shown by the counterexample.

### C51 DIM and NEW keep the other dimensions — proved

NEW(p) returns the original dimensions followed by the transformed ones; DIM(p, dims) returns the untouched dimensions in their order followed by the transformed selected ones.

*How*: `_fit/_transform` of the preparateurs on lists; pointwise characterisation on the `tab` normal form

* `Fruits.C51_new` (Props/Prep6; pcq)
* `Fruits.C51_new_none` (Props/Prep6; pcq)
* `Fruits.C51_dim` (Props/Prep6; pcq)

### C52 RIN subtracts a weighted window of the same dimension — partial

After fit with out_dim=in_dim, each output dimension of RIN is x_i - (k_w*x_{i-1}+...+k_1*x_{i-w}) for a single input dimension x.

*How*: `_fit/_transform` of the preparateurs on lists; pointwise characterisation on the `tab` normal form

* `Fruits.C52_window_partial` (Props/Prep7; pcq)
* `Fruits.C52_const_kernel` (Props/Prep7; pcq)
* `Fruits.C52_counterexample` (Props/Prep7; pcq)

*Note*: The code reads dimension j instead of dims[j] for the current value; the theorem describes the code and agrees with the documentation when the permutation is the identity.

### C53 RIN kernels sum to one — partial

With force_sum_one the drawn kernel of each dimension sums to one and stays inside [-1,1]; without it the kernel has mean zero.

*How*: `_fit/_transform` of the preparateurs on lists; pointwise characterisation on the `tab` normal form

* `Fruits.C53_kernel_partial` (Props/Prep7; pcq)
* `Fruits.C53_counterexample` (Props/Prep7; pcq)
* `Fruits.C53_default_kernel_zero` (Props/Prep7; pcq)

*Note*: force_sum_one leaves [-1,1]; default kernel is zero.

### C54 Random projections use every dimension exactly once — partial

RIN(out_dim=k) and JLD(k, distribute=True) split the input dimensions into k groups whose sizes differ by at most one and use every input dimension in exactly one group.

*How*: `_fit/_transform` of the preparateurs on lists; pointwise characterisation on the `tab` normal form

* `Fruits.C54_jld_partial` (Props/Prep8; pcq)
* `Fruits.C54_rin_partial` (Props/Prep8; pcq)
* `Fruits.C54_counterexample` (Props/Prep8; pcq)

*Note*: RIN mixes a wrong dimension.

### C55 JLD is linear and acts per time step — proved

Without bias JLD is a linear map applied to every time step separately.

*How*: `_fit/_transform` of the preparateurs on lists; pointwise characterisation on the `tab` normal form

* `Fruits.C55_linear` (Props/Prep8; pcq)

### C56 FFN acts per time step and ignores offsets when centering — proved

FFN applies the same two-layer network to each (centered) time step; with center=True adding a constant to a dimension changes nothing.

*How*: `_fit/_transform` of the preparateurs on lists; pointwise characterisation on the `tab` normal form

* `Fruits.C56_network` (Props/Prep9; pcq)
* `Fruits.C56_offset` (Props/Prep9; pcq)

*Note*: For every random source.

### C57 RPE is a rotation — proved

RPE preserves the Euclidean norm of every time step and needs exactly two dimensions, otherwise it raises.

*How*: `_fit/_transform` of the preparateurs on lists; pointwise characterisation on the `tab` normal form

* `Fruits.C57_rotation` (Props/Prep9; pcq)
* `Fruits.C57_wrong_dims` (Props/Prep9; pcq)

*Note*: sin and cos are parameters with sin^2+cos^2=1.

### C58 Preparateurs treat series independently — proved

After fitting, every built-in preparateur transforms each series of the dataset independently of the other series.

*How*: `_fit/_transform` of the preparateurs on lists; pointwise characterisation on the `tab` normal form

* `Fruits.C58_independent` (Props/Prep10; pcq)
* `Fruits.C58_independent_alone` (Props/Prep10; pcq)
* `Fruits.C58_other_series_irrelevant` (Props/Prep10; pcq)

*Note*: User functions in FUN have to treat series independently themselves.

### C59 Segments partition the series — proved

For integer cuts in 0..n the sorted cut points split the series into consecutive disjoint segments covering exactly the first max(cut) values; -1 means the end.

*How*: the sieves' `_backend` loops; pointwise and counting lemmas per band

* `Fruits.C59_partition` (Props/Sieve1; pcq)

### C60 Sieves return nfeatures() columns — partial

Every sieve's transform returns exactly nfeatures() columns per series.

*How*: the sieves' `_backend` loops; pointwise and counting lemmas per band

* `Fruits.C60_columns_partial` (Props/Sieve4; pcq)
* `Fruits.C60_counterexample` (Props/Sieve4; pcq)

*Note*: False for END with more than two quantile values (proved counterexample); proved for every other fitted sieve.

### C61 MAX and MIN bound their segment — proved

MAX/MIN with the default q return for every non-empty segment the attained maximum/minimum and 0 for an empty one.

*How*: the sieves' `_backend` loops; pointwise and counting lemmas per band

* `Fruits.C61` (Props/Sieve2; pcq)
* `Fruits.C61_max_bands` (Props/Sieve2; pcq)
* `Fruits.C61_min_bands` (Props/Sieve2; pcq)

### C62 END returns the last value of each segment — proved

END(cut) returns x[c-1] for every cut point c with 1<=c<=n, in sorted order of the cuts.

*How*: the sieves' `_backend` loops; pointwise and counting lemmas per band

* `Fruits.C62` (Props/Sieve2; pcq)

### C63 CUR, AVG and STD compute what they are named after — partial

CUR returns the sum of squared second-order increments of each segment, AVG the mean and STD the standard deviation.

*How*: the sieves' `_backend` loops; pointwise and counting lemmas per band

* `Fruits.C63_cur_partial` (Props/Sieve2; pcq)
* `Fruits.C63_avg_std_are_cur` (Props/Sieve2; pcq)
* `Fruits.C63_counterexample` (Props/Sieve2; pcq)

*Note*: False for AVG and STD: both run the CUR code (proved). CUR is proved.

### C64 NPI counts partition the segment — proved

For increasing quantile values from -inf to +inf the NPI counts of the bins of a segment add up to the segment length, and NPI() counts the positive increments.

*How*: the sieves' `_backend` loops; pointwise and counting lemmas per band

* `Fruits.C64_counts` (Props/Sieve3; pcq)
* `Fruits.C64_bins` (Props/Sieve3; pcq)
* `Fruits.C64_default` (Props/Sieve3; pcq)

### C65 LPI is the longest run — proved

LPI returns the length of the longest contiguous run of in-range values of the segment.

*How*: the sieves' `_backend` loops; pointwise and counting lemmas per band

* `Fruits.C65` (Props/Sieve3; pcq)

### C66 MPI and XPI are means over the in-range positions — proved

MPI (XPI) returns the mean of the in-range values (their positions relative to the segment start) and 0 if there is none; MPI times NPI is the sum of the in-range values.

*How*: the sieves' `_backend` loops; pointwise and counting lemmas per band

* `Fruits.C66_mpi` (Props/Sieve3; pcq)
* `Fruits.C66_xpi` (Props/Sieve3; pcq)
* `Fruits.C66_product` (Props/Sieve3; pcq)

### C67 PPV is a proportion — proved

After fit PPV features lie in [0,1], are antitone in the quantile value, and the segment features for sorted quantile values add up to the proportion of values in [q_first, q_last).

*How*: the sieves' `_backend` loops; pointwise and counting lemmas per band

* `Fruits.C67_values` (Props/Sieve4; pcq)
* `Fruits.C67_segments` (Props/Sieve4; pcq)
* `Fruits.C67_fit` (Props/Sieve4; pq)

### C68 CPV counts strips — partial

CPV returns 2/n' times the number of maximal runs of values >= q (n' the length rounded up to even) and lies in [0,1].

*How*: the sieves' `_backend` loops; pointwise and counting lemmas per band

* `Fruits.C68_strips_partial` (Props/Sieve5; pcq)
* `Fruits.C68_segments_partial` (Props/Sieve5; pcq)
* `Fruits.C68_counterexample` (Props/Sieve5; pcq)

*Note*: False for a strip that starts at the first value (proved counterexample); proved for all other strips.

### C69 Sieve wrappers evaluate on increments and integrals — partial

INC(sieve, depth=d) evaluates the sieve on the d-fold increments of the input, INT(sieve) on the cumulative sums, with the wrapped number of features and labels.

*How*: the sieves' `_backend` loops; pointwise and counting lemmas per band

* `Fruits.C69_int` (Props/Sieve5; pcq)
* `Fruits.C69_inc_partial` (Props/Sieve5; pcq)
* `Fruits.C69_inc_labels` (Props/Sieve5; pcq)
* `Fruits.C69_inc_depth` (Props/Sieve5; pcq)
* `Fruits.C69_counterexample` (Props/Sieve5; pcq)

*Note*: False for INC with depth other than 1: the depth is ignored (proved). INT and INC of depth 1 are proved.

### C70 Segment labels name the feature — partial

label(i) of a segment sieve names the cut and the quantile interval feature i was computed from.

*How*: the sieves' `_backend` loops; pointwise and counting lemmas per band

* `Fruits.C70_label_partial` (Props/Sieve6; pcq)
* `Fruits.C70_counterexample` (Props/Sieve6; pcq)

*Note*: False for unsorted cuts or quantiles (proved counterexample); proved when both are increasing.

### C71 Copies of seeds behave like the original — partial

copy() of a preparateur, ISS or sieve, fitted with the same data and randomness, transforms like the original.

*How*: the sieves' `_backend` loops; pointwise and counting lemmas per band

* `Fruits.C71_prep_partial` (Props/Copies; pcq)
* `Fruits.C71_prep_copy_idempotent` (Props/Copies; pq)
* `Fruits.C71_std_counterexample` (Props/Copies; pcq)
* `Fruits.C71_iss` (Props/Copies; pcq)
* `Fruits.C71_coswiss` (Props/Copies2; pcq)
* `Fruits.C71_sieve_partial` (Props/Copies; pcq)
* `Fruits.C71_ppv_copySafe` (Props/Copies; pcq)
* `Fruits.C71_norm_counterexample` (Props/Copies; pcq)
* `Fruits.C71_ppv_raises` (Props/Copies; pcq)
* `Fruits.C71_flags_counterexample` (Props/Copies; pcq)

*Note*: False for STD with std_eps, segment sieves with coquantile_norm, some PPV/CPV (proved counterexamples); proved for all other built-in seeds.

### C72 Sieves treat series independently — proved

After fitting, every built-in sieve computes the features of a series from this series only (given its cut points).

*How*: the sieves' `_backend` loops; pointwise and counting lemmas per band

* `Fruits.C72_independent` (Props/Sieve6; pcq)
* `Fruits.C72_independent_alone` (Props/Sieve6; pcq)

### C73 Feature layout — proved

Fruit.transform(X) has nfeatures() columns: for each slice in order, for each iterated sum in order, for each sieve in order, its features; no column is left unset or written twice.

*How*: `Fruit`/`FruitSlice` as a state machine over a heap, generic in the seeds; invariants over histories, induction over the nested loops; instantiated with the library's seeds

* `Fruits.C73_layout` (Props/Fruit3; pcq)
* `Fruits.builtin_keepsRows` (Props/Builtin1; pcq)
* `Fruits.builtin_countsRight` (Props/Builtin1; pcq)
* `Fruits.builtin_keepsN` (Props/Builtin1; pcq)

*Note*: For every history of calls; the hypotheses on seeds are proved for the library's seeds (user functions in FUN keep the number of series). Sieves with a negative number of features are excluded (np.zeros raises).

### C74 Chained ISS enumerate the product — proved

A slice with several ISS produces niteratedsums() = product of their counts iterated sums, in lexicographic order of the word indices, each being the composition of the chosen iterated sums.

*How*: `Fruit`/`FruitSlice` as a state machine over a heap, generic in the seeds; invariants over histories, induction over the nested loops; instantiated with the library's seeds

* `Fruits.C74_chain` (Props/Fruit1; pcq)
* `Fruits.builtin_countsRight` (Props/Builtin1; pcq)

### C75 Fruit.label names the column — proved

Fruit.label(c) is built from the preparateurs, word labels and sieve label of the slice, iterated sum and feature that column c of transform is computed from; out-of-range indices raise.

*How*: `Fruit`/`FruitSlice` as a state machine over a heap, generic in the seeds; invariants over histories, induction over the nested loops; instantiated with the library's seeds

* `Fruits.C75_label` (Props/Fruit7; pcq)
* `Fruits.C75_label_of_column` (Props/Fruit7; pcq)
* `Fruits.C75_iterated_label` (Props/Fruit7; pcq)

*Note*: Slices need at least one ISS (implied by a successful transform; without one the label string is mangled).

### C76 transform needs fit — proved

After any sequence of configuration calls, transform raises unless every slice was successfully fitted after its last configuration change.

*How*: `Fruit`/`FruitSlice` as a state machine over a heap, generic in the seeds; invariants over histories, induction over the nested loops; instantiated with the library's seeds

* `Fruits.C76_transform_needs_fit` (Props/Fruit3; pcq)
* `Fruits.C76_slice_transform_needs_fit` (Props/Fruit3; pcq)

*Note*: Assignments to fit_sample_size do not count as configuration changes.

### C77 Refitting forgets the past — proved

After a successful fit, transform uses only sieves fitted by that fit call, whatever was fitted, added or cleared before.

*How*: `Fruit`/`FruitSlice` as a state machine over a heap, generic in the seeds; invariants over histories, induction over the nested loops; instantiated with the library's seeds

* `Fruits.C77_refit` (Props/Fruit12; pcq)
* `Fruits.C77_slice_refit` (Props/Fruit11; pcq)
* `Fruits.builtin_refits` (Props/Builtin2; pcq)

*Note*: For every history before and after; the random numbers of the two fits are the same. Edits of the settings or words of the fruit's own ISS objects in between are excluded (they change the configuration).

### C78 A failed fit does not leave a usable fruit — partial

If fit raises, a following transform raises instead of returning features from a partially updated state.

*How*: `Fruit`/`FruitSlice` as a state machine over a heap, generic in the seeds; invariants over histories, induction over the nested loops; instantiated with the library's seeds

* `Fruits.C78_partial` (Props/Fruit13; pcq)
* `Fruits.C78_slice_partial` (Props/Fruit13; pcq)
* `Fruits.C78_first_fit_partial` (Props/Fruit13; pcq)
* `Fruits.Demo.C78_counterexample` (Props/Demo4; pcq)

*Note*: False when an earlier fit had succeeded: transform then returns a mixture of old and new fits (proved counterexample). Proved: transform raises after a failed fit unless the failing slice and all later ones had been fitted before.

### C79 Deep copies are independent — partial

No sequence of operations on a deepcopy changes what the original's transform returns, and vice versa; the deepcopy has the same configuration and is unfitted.

*How*: `Fruit`/`FruitSlice` as a state machine over a heap, generic in the seeds; invariants over histories, induction over the nested loops; instantiated with the library's seeds

* `Fruits.C79_slice_deepcopy_partial` (Props/Fruit5; pcq)
* `Fruits.C79_fruit_deepcopy_partial` (Props/Fruit6; pcq)
* `Fruits.Demo.C79_shared_words` (Props/Demo; pcq)

*Note*: False for in-place changes of the words: the copied ISS objects share the list of words (proved counterexample). Proved for all histories that do not change words of the other object in place.

### C80 Copies keep the settings — partial

FruitSlice.copy()/Fruit.copy() have the same preparateurs, ISS, sieves and settings as the original.

*How*: `Fruit`/`FruitSlice` as a state machine over a heap, generic in the seeds; invariants over histories, induction over the nested loops; instantiated with the library's seeds

* `Fruits.C80_slice_copy_partial` (Props/Fruit4; pcq)
* `Fruits.C80_fruit_copy_partial` (Props/Fruit4; pcq)
* `Fruits.C80_copy_drops_sample` (Props/Fruit4; pcq)

*Note*: False for fit_sample_size, which copy() resets (proved); all other settings are kept.

### C81 clear resets the slice — proved

After clear() a slice has the settings of a new FruitSlice, for every history.

*How*: `Fruit`/`FruitSlice` as a state machine over a heap, generic in the seeds; invariants over histories, induction over the nested loops; instantiated with the library's seeds

* `Fruits.C81_clear_resets` (Props/Fruit4; pcq)
* `Fruits.C81_new_slice` (Props/Fruit4; pq)

### C82 Callback protocol — partial

During transform every callback sees, per slice: on_next_slice, one on_preparateur per preparateur, one on_preparation_end, then per iterated sum one on_iterated_sum followed by one on_sieve per sieve, and finally one on_sieving_end; on_sieve receives that sieve's feature columns.

*How*: `Fruit`/`FruitSlice` as a state machine over a heap, generic in the seeds; invariants over histories, induction over the nested loops; instantiated with the library's seeds

* `Fruits.C82_callbacks_partial` (Props/Fruit3; pcq)
* `Fruits.Demo.C82_on_sieve_rows` (Props/Demo; pcq)

*Note*: The order and the arguments of all calls are proved except the argument of on_sieve, which is a slice of rows instead of columns (proved counterexample).

### C83 Features are finite — proved

Fruit.transform never returns NaN or infinite values; finite values are returned unchanged.

*How*: `Fruit`/`FruitSlice` as a state machine over a heap, generic in the seeds; invariants over histories, induction over the nested loops; instantiated with the library's seeds

* `Fruits.C83_finite` (Props/Fruit9; pq)
* `Fruits.C83_unchanged` (Props/Fruit9; pcq)

*Note*: Floating point values are modelled as numbers, two infinities and NaN.

### C84 Fit samples are distinct series of the data — proved

fit uses max(1, floor(f*n)) distinct series for a fraction f in (0,1], and exactly one series for the integer 1.

*How*: `Fruit`/`FruitSlice` as a state machine over a heap, generic in the seeds; invariants over histories, induction over the nested loops; instantiated with the library's seeds

* `Fruits.C84_sample` (Props/Fruit8; pcq)
* `Fruits.C84_fit_uses_sample` (Props/Fruit8; pcq)
* `Fruits.C84_other_integers` (Props/Fruit8; pcq)

*Note*: Any random generator that returns distinct indices in range. Integers other than 1 raise (proved).

### C85 Fitting sees consistent coquantiles — partial

During FruitSlice.fit the cached per-series data (coquantiles, L1/L2 variation) used for a sampled series belongs to that series.

*How*: `Fruit`/`FruitSlice` as a state machine over a heap, generic in the seeds; invariants over histories, induction over the nested loops; instantiated with the library's seeds

* `Fruits.C85_partial` (Props/Fruit14; pq)
* `Fruits.builtin_cacheFree` (Props/Fruit14; pcq)
* `Fruits.Demo.C85_counterexample` (Props/Demo4; pcq)

*Note*: False: with WIN the window of another series is used (proved counterexample). Proved for all slices without WIN, SPE(step_transform) and raw L1/L2 weightings, where fit does not depend on the cache.

### C86 Slices are independent — proved

The features of a slice do not depend on the other slices of the fruit when the slices share no seed objects.

*How*: `Fruit`/`FruitSlice` as a state machine over a heap, generic in the seeds; invariants over histories, induction over the nested loops; instantiated with the library's seeds

* `Fruits.C86_slice_alone` (Props/Fruit12; pcq)
* `Fruits.C86_features` (Props/Fruit12; pcq)

*Note*: Random numbers are those drawn for the slice.

### C87 Slice bookkeeping — proved

cut/copycut/switch_slice/add keep a valid current slice, cut selects the new slice, switch_slice rejects indices outside 0..len-1, and add on an empty fruit creates a slice; get_slice(i) and fruit[i] return the i-th slice for 0 <= i < len, the (len+i)-th for -len <= i < 0 and raise otherwise; get_slice() returns the current slice.

*How*: `Fruit`/`FruitSlice` as a state machine over a heap, generic in the seeds; invariants over histories, induction over the nested loops; instantiated with the library's seeds

* `Fruits.C87_current_slice_valid` (Props/Fruit4; pcq)
* `Fruits.C87_cut` (Props/Fruit4; pcq)
* `Fruits.C87_copycut` (Props/Fruit4; pcq)
* `Fruits.C87_switch` (Props/Fruit4; pcq)
* `Fruits.C87_add` (Props/Fruit4; pcq)
* `Fruits.C87_get_slice` (Props/Fruit17; pq)

### C88 CosWISS computes the cosine-weighted ISS — partial

CosWISS with exponent s returns sum over i_1<...<i_p<=t of prod letters * prod_j cos(pi*(i_{j+1}-i_j)/(f*(N-1)))**s, with total weighting also times cos(pi*(t-i_p)/(f*(N-1)))**s.

*How*: CosWISS weightings and kernels; expansion of powers of cosine differences

* `Fruits.C88_coswiss_partial` (Props/Cos2; pcq)
* `Fruits.C88_network_partial` (Props/Cos2; pcq)
* `Fruits.C88_counterexample` (Props/Cos2; pcq)
* `Fruits.C88_every_exponent` (Props/Cos3; pcq)
* `Fruits.C88_false_from_five` (Props/Cos3; pcq)

*Note*: False for every exponent from 5 on (C88_false_from_five, over the reals: only the first digits of the binomial coefficients and exponents are used; C88_every_exponent gives the sum that is really computed for every exponent). Proved for exponents up to 4 (default 2), all words, frequencies, lengths, with and without total weighting and the random network.

### C89 CosWISS order and labels — proved

CosWISS returns len(freqs)*len(words) iterated sums, words outer and frequencies inner, for every batch size, and label(i) names that word and frequency.

*How*: CosWISS weightings and kernels; expansion of powers of cosine differences

* `Fruits.C89_batches` (Props/Cos2; pcq)
* `Fruits.C89_label` (Props/Cos2; pcq)
* `Fruits.C89_label_range` (Props/Cos2; pcq)

### C90 CosWISS dropout is the ISS of masked letters — proved

With dropout the result is the cosine-weighted ISS where the j-th index never lies in the j-th dropped index set.

*How*: CosWISS weightings and kernels; expansion of powers of cosine differences

* `Fruits.C90_masked` (Props/Cos2; pcq)
* `Fruits.C90_dropout` (Props/Cos2; pcq)

*Note*: C90_masked holds for every exponent; C90_dropout gives the sum over the remaining tuples for exponents up to 4 (limit of C88).

### C91 Weighting lookups lie in [0, scale] and increase — proved

Indices, L1, L2 and (non-reversed) Plateaus lookups without user transform lie in [0, scale], start at 0 and never decrease, so weights exp(a*(g(i)-g(j))) for i<=j, a>=0 never exceed 1.

*How*: weightings; monotonicity of prefix sums, floor arithmetic

* `Fruits.C91_ramp` (Props/Weightings; pcq)
* `Fruits.C91_weights` (Props/Weightings; pcq)

### C92 Indices ignores relative — partial

Indices(relative=True) and Indices(relative=False) give the linear ramp g(i)=scale*i/(N-1).

*How*: weightings; monotonicity of prefix sums, floor arithmetic

* `Fruits.C92_relative_partial` (Props/Weightings; pcq)
* `Fruits.C92_absolute` (Props/Weightings; pcq)
* `Fruits.C92_differs` (Props/Weightings; pcq)

*Note*: False for relative=False: NRM truncates the integer ramp (proved closed form and proved difference). Proved for relative=True.

### C93 Plateaus is a step function — proved

Plateaus(n) takes at most n different values, non-decreasing, constant on equal blocks, and reverse=True reverses it.

*How*: weightings; monotonicity of prefix sums, floor arithmetic

* `Fruits.C93_constructor` (Props/Weightings; pq)
* `Fruits.C93_plateaus` (Props/Weightings; pcq)
* `Fruits.C93_reverse` (Props/Weightings; pcq)
* `Fruits.C93_values` (Props/Weightings; pcq)
* `Fruits.C93_blocks` (Props/Weightings; pq)

### C94 Words with arbitrary letters — proved

ISS([w]) for a general Word w: Reals gives the strict iterated sum of the products of its letter functions, Arctic the attained maximum over i_1<=...<=i_p<=t of the sums, Bayesian (non-negative values) the attained maximum over i_1<...<i_p<=t of the products (0 while no such tuple exists); a weighting has no effect on general words.

*How*: the generic `Word` path of the three semirings; closed forms by induction over letters and time

* `Fruits.C94_general_reals` (Props/General; pcq)
* `Fruits.C94_general_arctic` (Props/General; pcq)
* `Fruits.C94_general_bayesian` (Props/General; pcq)

### C95 Arctic and Bayesian iterated sums are invariant under time warping — proved

Repeating samples of the series repeats samples of its Arctic iterated sums (and, for non-negative data, of its Bayesian ones) at the same places, without taking increments and with or without L1/L2 weighting; so the features of a warp-invariant sieve do not change.

*How*: time warping as a monotone surjection of index ranges (repeat counts); zero increments do not change running sums, repeated samples do not change running maxima, sieves are counted band by band

* `Fruits.C95_iterated_sums` (Props/Warp; pcq)
* `Fruits.C95_pipeline` (Props/Warp2; pcq)
* `Fruits.C12_weighting` (Props/Warp; pcq)

*Note*: Words of simple letters (general words: not covered).

### C96 Sieves that are invariant under time warping — proved

NPI and MPI with bands that do not contain 0, MAX and MIN with default quantiles, and END, cut at the end or at coquantiles, give the same features for a row and for the same row with repeated samples.

*How*: time warping as a monotone surjection of index ranges (repeat counts); zero increments do not change running sums, repeated samples do not change running maxima, sieves are counted band by band

* `Fruits.C96_npi_mpi` (Props/Warp2; pcq)
* `Fruits.C96_max_min` (Props/Warp2; pcq)
* `Fruits.C12_end` (Props/Warp2; pcq)

### C97 A fitted fruit treats every series on its own — proved

Row i of Fruit.transform(X) is the single row of Fruit.transform([X[i]]): the features of a series do not depend on which other series are transformed with it, for all preparateurs, ISS, weightings and sieves of the library (and user functions that have the property).

*How*: congruence of every seed with taking single series, lifted through the loops of `Fruit.transform`

* `Fruits.C97_library` (Props/Series2; pcq)
* `Fruits.C97_series_alone` (Props/Series2; pcq)
* `Fruits.C97_other_series_irrelevant` (Props/Series2; pcq)
* `Fruits.C97_generic` (Props/Series1; pq)

*Note*: transform of the whole dataset succeeds. C97_library has no condition on the seeds except that they are the library's own; C97_series_alone also covers user functions that treat series one by one.

### C98 Equal preparateurs behave equally — partial

If a == b is True for two newly constructed preparateurs, then fitting both on the same data (with the same random numbers) and transforming the same data gives the same result.

*How*: `__eq__` of every class on the settings; equality is equality of a key (class and compared settings)

* `Fruits.C98_equal_behave_partial` (Props/Equality1; pcq)
* `Fruits.C98_copies` (Props/Equality1; pcq)
* `Fruits.C98_counterexample_eps` (Props/Equality1; pcq)
* `Fruits.C98_counterexample_types` (Props/Equality1; pcq)

*Note*: False for STD objects with different std_eps and for int/float settings of equal value (INC(1) == INC(1.0)), proved counterexamples; proved for all other pairs.

### C99 == of preparateurs is an equivalence relation — partial

For preparateurs a, b, c: a == a is True, a == b and b == a agree, and a == b and b == c imply a == c; comparing never raises.

*How*: `__eq__` of every class on the settings; equality is equality of a key (class and compared settings)

* `Fruits.C99_reflexive_partial` (Props/Equality1; pcq)
* `Fruits.C99_symmetric` (Props/Equality1; pcq)
* `Fruits.C99_transitive` (Props/Equality1; pcq)
* `Fruits.C99_raises` (Props/Equality1; pcq)
* `Fruits.C99_counterexample` (Props/Equality1; pcq)

*Note*: Reflexivity fails for FUN, FFN, DIL, DIM, NEW and RIN with a constant kernel, comparing WIN, DOT, PDD with another class raises (proved). Symmetry, transitivity and the exact conditions are proved.

### C100 A copy of a preparateur is equal to it — partial

p == p.copy() for every preparateur p, fitted or not.

*How*: `__eq__` of every class on the settings; equality is equality of a key (class and compared settings)

* `Fruits.C100_copy_equal_partial` (Props/Equality1; pcq)
* `Fruits.C100_not_comparable` (Props/Equality1; pcq)

*Note*: False exactly for the objects that are not equal to themselves (proved); proved for all others.

### C101 User-defined letters — proved

The decorator letter registers a function under its own or the given free name, refuses a used name, changes no other letter, and words written with the name apply the function to the given dimension.

*How*: the decorator as a function on the registry; string lemmas of C29

* `Fruits.C101_letter` (Props/UserCode1; pcq)
* `Fruits.C101_letter_in_word` (Props/UserCode1; pcq)
* `Fruits.C101_misuse` (Props/UserCode1; p)

*Note*: Names with brackets can be registered but not used in a word string (example). letter(f, name=n) registers nothing.

### C102 User-defined semirings — proved

A Semiring subclass that only defines identity, operation and cumulative operation gives, for every word, the sums (in that semiring) over i_1<...<i_p<=t of the products of the letters, for all prefixes requested.

*How*: the generic loop with arbitrary operations, interpreted in a commutative semiring; induction over the rounds

* `Fruits.C102_user_semiring` (Props/UserCode1; pcq)
* `Fruits.C102_simple_word` (Props/UserCode1; pcq)
* `Fruits.userMinPlus_means` (Props/UserCode1; pcq)
* `Fruits.userReals_means` (Props/UserCode1; pcq)

*Note*: Before time p-1 (no tuple) the value is the number 0 also if the semiring's zero is another one. Negative exponents of simple words are dropped on this path. Letters have to return arrays of the length of the series.

### C103 The text of a preparateur tells its settings — partial

str(p) (which is also label(0) and what Fruit.label and the summaries show) of two preparateurs that have not been fitted is the same only if they have the same class and settings, so equal texts mean equal results; copying and fitting a preparateur does not change its text.

*How*: texts as lists of characters; unique decomposition at commas, parentheses, bars and arrows

* `Fruits.C103_text_partial` (Props/Texts1; pcq)
* `Fruits.C103_behave_partial` (Props/Texts1; pcq)
* `Fruits.C103_copy` (Props/Texts1; pcq)
* `Fruits.C103_fit` (Props/Texts1; pcq)
* `Fruits.C103_counterexample` (Props/Texts1; pcq)

*Note*: False for STD: std_eps is not part of the text (proved counterexample). Proved for all other settings, assuming what the texts of floats and functions of the program look like (TextLaws, satisfiable). CTS shifts are numbers (an int shift is printed like a float).

### C104 Different features have different labels — partial

Within a slice (and within a sieve), different feature indices have different labels.

*How*: texts as lists of characters; unique decomposition at commas, parentheses, bars and arrows

* `Fruits.C104_slice_partial` (Props/Texts2; pcq)
* `Fruits.C104_sieve_partial` (Props/Texts2; pcq)
* `Fruits.C104_counterexample` (Props/Texts2; pcq)

*Note*: False for PPV and CPV with several quantiles, all of whose features have the text of the sieve as label (proved). Proved for slices whose words and sieves have different texts without the separators, and for segment sieves with different cuts and quantiles.

### C105 Summaries are complete, ordered and framed — partial

summary() of a slice lists its number of features, every preparateur, every ISS with number of iterated sums, words, semiring and weighting, and every sieve with its number of features, in order, in lines of 38 characters; summary() of a fruit puts them two by two in a frame of 80 characters, an odd last one in a frame of 40.

*How*: the summaries as text; splitting at line breaks, compared with a list of lines written down independently

* `Fruits.C105_slice_partial` (Props/Summary1; pcq)
* `Fruits.C105_fruit_partial` (Props/Summary1; pcq)
* `Fruits.C105_counterexample` (Props/Summary1; pcq)

*Note*: False for slices without ISS (a line of 76 characters and an empty one, proved for all such slices). Proved for all others; texts with line breaks or longer than a line are excluded from the statement about widths only.

### C106 A time warping invariant fruit — proved

A fruit whose slices are built from elastic preparateurs (NRM, QTC, STD over all series), INC and a Reals ISS with positive letters, or an Arctic ISS, or a Bayesian ISS on non-negative data, optionally with raw L1/L2 weighting, and from the sieves END, NPI, MPI, MAX, MIN (default quantiles, coquantile or last cuts), fitted on any training data, returns the same features for a dataset and for the dataset with samples repeated.

*How*: C12, C95, C96 lifted through the loops of `Fruit.fit` and `Fruit.transform`; what fitting changes is shown not to matter for repeated samples; the script as a list of calls

* `Fruits.C106_fitted` (Props/Warp3; pcq)
* `Fruits.C106_fruit` (Props/Warp3; pcq)

*Note*: Words of simple letters; datasets with at least one series and dimension.

### C107 EXTENDED mode over of_weight — proved

An ISS over of_weight(w, dim) in EXTENDED mode computes one iterated sum for every word of weight 1..w over the dimensions, without repetition, with that word as label; in dimension one these are 2^w - 1.

*How*: non-empty beginnings of the words of weight `w` are the words of weight at most `w`; C18, C26

* `Fruits.C107_extended_of_weight` (Props/Words4; pcq)
* `Fruits.C107_one_dimension` (Props/Words4; pcq)

*Note*: Weight at least one (of_weight(0) raises) and at least one dimension; the count is stated for all semirings except Arctic(argmax=True).

### C108 The fruit of fruit_twi.py — proved

The fruit built by experiments/fruit_twi.py can be fitted to any data, transforms any data with the same number of dimensions into 1725 columns without raising, and is then invariant under time warping.

*How*: C12, C95, C96 lifted through the loops of `Fruit.fit` and `Fruit.transform`; what fitting changes is shown not to matter for repeated samples; the script as a list of calls

* `Fruits.C108_total` (Props/Total6; pcq)
* `Fruits.C108_fruit_twi` (Props/Twi; pcq)
* `Fruits.C108_nfeatures` (Props/Twi; pcq)

*Note*: The script is modelled as a list of calls.

### C109 Fit and transform never raise on well-shaped data — proved

A fruit (or slice), built by any history of calls, whose seeds have documented settings matching the number d of dimensions can be fitted to every dataset with d dimensions, and then transforms every dataset with d dimensions, with any number of series of any length: no exception is raised, and the result has one row per series and nfeatures() columns.

*How*: a typing of seeds by numbers of dimensions (`Typing`), proved sound for every seed class of the library, and lifted through the loops of `Fruit.fit` and `Fruit.transform`

* `Fruits.C109_total` (Props/Total5; pcq)
* `Fruits.C109_columns` (Props/Total6; pcq)
* `Fruits.C109_slice` (Props/Total6; pcq)

*Note*: SliceFor is the specification of the documented settings; C108_total and w8_for are instances. Division by zero in NRM/STD of constant data gives the field's 0 instead of NaN (floats are not modelled).

### C110 Fitting does not change how a fruit looks — proved

nfeatures(), label(...) at every level and summary() of every fruit and every slice return the same (or raise the same exception) before and after Fruit.fit or FruitSlice.fit, whether fit returns or raises.

*How*: an invariant of the loops of `fit` (`KeepsLook`) on every path, also those that end with an exception

* `Fruits.C110_looks` (Props/Fruit15; pcq)
* `Fruits.C110_fruit` (Props/Fruit15; pcq)
* `Fruits.C110_slice` (Props/Fruit15; pcq)

*Note*: C110_fruit and C110_slice hold for all seeds that satisfy ShownAlike; builtin_shownAlike proves it for the library.

### C111 Number of words of a given weight — proved

of_weight(w, dim) returns a_w words where a_w is the sum over k = 1..w of C(dim+k-1, k) * a_(w-k) with a_0 = 1; in two dimensions a_(w+2) = 4 a_(w+1) - 2 a_w.

*How*: a word of weight w is an extended letter of weight k followed by a word of weight w-k: permutation of duplicate-free lists; C(d+k-1,k) multisets by induction

* `Fruits.C111_number_of_words` (Props/Words5; pcq)
* `Fruits.C111_two_dimensions` (Props/Words5; pcq)
* `Fruits.C111_two_dimensions_recurrence` (Props/Words5; pcq)

### C112 The fruits of fruit_general.py and fruit_reduced.py — proved

The fruits built by experiments/fruit_general.py and experiments/fruit_reduced.py have 20167 and 4431 features, can be fitted to any data (any number of dimensions and lengths) and then transform any data with the same number of dimensions into so many columns without raising.

*How*: the scripts as lists of calls, evaluated by a sound list interpreter (`Conf.run_sound`); C107, C109, C111 and the distinct beginnings of the alternating words

* `Fruits.C112_general` (Props/Scripts3; pcq)
* `Fruits.C112_reduced` (Props/Scripts3; pcq)

*Note*: The scripts are modelled as lists of calls; exp_hypotheses shows that the constructor calls in the hypotheses succeed.

### C113 Parallel loops do not depend on the schedule — proved

The compiled functions run their loops over the series (MAV, JLD, RPE also over dimensions or time steps) in parallel on one shared result array. Whatever the number of threads and the order in which they execute their reads and writes of single numbers, the array after the loop is the one the sequential loop computes. This covers the iterated sums of the three semirings, CosWISS, MAV, RIN, JLD, RPE, MAX, MIN, CUR, NPI, MPI, XPI, LPI, the coquantiles and the L1/L2 sums of the cache.

*How*: small-step semantics of threads with an arbitrary schedule; invariant: an iteration only touches its own part of the array, so it computes what it computes alone

* `Fruits.Par.run_mem` (Props/Parallel1; pq)
* `Fruits.Par.C113_iterated_sums` (Props/Parallel1; pcq)
* `Fruits.Par.C113_coswiss` (Props/Parallel1; pq)
* `Fruits.Par.C113_mav` (Props/Parallel1; pcq)
* `Fruits.Par.C113_rin` (Props/Parallel1; pcq)
* `Fruits.Par.C113_jld` (Props/Parallel1; pcq)
* `Fruits.Par.C113_rpe` (Props/Parallel1; pcq)
* `Fruits.Par.C113_sieves` (Props/Parallel1; pcq)
* `Fruits.Par.C113_coquantiles` (Props/Parallel1; pq)
* `Fruits.Par.C113_norm_sums` (Props/Parallel1; pq)
* `Fruits.Par.exists_finished` (Props/Parallel1; pcq)

*Note*: Every iteration is a thread; schedules interleave single reads and writes of the shared array (sequentially consistent memory).

### C114 Number of output dimensions of JLD — partial

JLD(k) with an integer k returns k dimensions; JLD(f) with a float f in (0,1) returns the smallest integer >= 24*log(d)/(3*f**2-2*f**3) dimensions, where d is the number of input dimensions.

*How*: the shape of the output is the number of groups made by `fit`; floor and ceiling of the bound

* `Fruits.C114_float_partial` (Props/Prep11; pcq)
* `Fruits.C114_integer` (Props/Prep11; pcq)
* `Fruits.C114_counterexample` (Props/Prep11; pcq)

*Note*: False if the bound is an integer: JLD(f) on one dimension returns one dimension, the bound is 0.

### C115 fit_transform — proved

Fruit.fit_transform(X) never raises for documented settings and well-shaped data, whether or not the fruit was fitted before; its result has one row per series and nfeatures() columns, is what transform(X) returns afterwards, and does not depend on what the fruit was fitted to before.

*How*: C77 and C109

* `Fruits.C115_same_as_transform` (Props/Fruit16; pq)
* `Fruits.C115_forgets` (Props/Fruit16; pcq)
* `Fruits.C115_total` (Props/Fruit16; pcq)
* `Fruits.C115_slice` (Props/Fruit16; pcq)

### C116 Learned quantiles of segment sieves — proved

fit of a segment sieve on a non-empty array succeeds for probabilities in [0,1] and -1 and raises otherwise; afterwards its bands are bounded by, in increasing order, minus infinity for -1, plus infinity for 1, zero for 0 and the linearly interpolated quantile of all training values (for NPI, MPI, XPI, LPI: of their inc-fold increments) for every other entry of q. In particular NPI(q=[-1,a,1]) counts at least floor(a*(N-1))+1 of the N training values in its first band and the rest in the second.

*How*: np.quantile as linear interpolation of the sorted values; counting of values at most / at least the quantile

* `Fruits.C116_fit` (Props/Sieve7; pcq)
* `Fruits.C116_fit_increments` (Props/Sieve7; pcq)
* `Fruits.C116_use` (Props/Sieve7; pq)
* `Fruits.C116_invalid` (Props/Sieve7; pcq)
* `Fruits.C116_balance` (Props/Sieve7; pcq)

*Note*: CUR learns the quantiles of the series although its bands select second increments (as the code does).

### C117 Accepted settings of PPV and CPV can be fitted — partial

PPV and CPV raise a ValueError at construction exactly if the flags do not match the quantiles, a non-constant quantile is no probability, the sample size is not in (0,1] or segments is set with less than two quantiles; every object that was constructed can be fitted on every non-empty array.

*How*: case analysis of the constructor; C67's fit succeeds for probabilities

* `Fruits.C117_accepts` (Props/Sieve8; pcq)
* `Fruits.C117_rejects` (Props/Sieve8; pcq)
* `Fruits.C117_rejects_one` (Props/Sieve8; pcq)
* `Fruits.C117_fit_partial` (Props/Sieve8; pcq)
* `Fruits.C117_counterexample` (Props/Sieve8; pcq)
* `Fruits.C117_counterexample_segments` (Props/Sieve8; pcq)

*Note*: False for a single quantile outside of [0,1], which is accepted but can never be fitted, and for segments with mixed flags, which are paired with the wrong quantiles (both proved); also PPV(0.5, constant=[]) and an empty list of quantiles are accepted.

### C118 lengthen repeats the last value — proved

lengthen(X, l) of the experiments package returns, for every l >= 0 and every dataset of n time steps, a dataset with floor(l*n) more time steps; the old time steps keep their values and the new ones have the last value of their series.

*How*: array loops; invariant of the stuttering loop: the part filled so far is a time warp of the series; C106

* `Fruits.C118_lengthen` (Props/Corb1; pcq)

### C119 implant_stuttering repeats samples — proved

implant_stuttering(X, s) of the experiments package always returns, whatever the random draws are; the result has floor(s*n) more time steps, and each dimension of each series is the original one with some samples repeated: the order is kept, no sample is left out and none is invented.

*How*: array loops; invariant of the stuttering loop: the part filled so far is a time warp of the series; C106

* `Fruits.C119_stuttering` (Props/Corb1; pcq)
* `Fruits.stuttering_warp` (Props/Corb1; pcq)

*Note*: At least one series, dimension and time step.

### C120 Lengthening and stuttering do not change the features of a time warping invariant fruit — partial

A time warping invariant fruit (see the property of that name), fitted on any training data, returns the same features for a dataset X, for lengthen(X, l) and for implant_stuttering(X, s).

*How*: array loops; invariant of the stuttering loop: the part filled so far is a time warp of the series; C106

* `Fruits.C120_lengthen` (Props/Corb1; pcq)
* `Fruits.C120_stuttering_partial` (Props/Corb1; pcq)
* `Fruits.StutterExample.C120_counterexample` (Props/Corb1; pcq)
* `Fruits.lengthen_warp` (Props/Corb1; pcq)

*Note*: False for implant_stuttering on series of several dimensions, which stutter independently (proved counterexample). Proved for lengthen, and for implant_stuttering in one dimension.

### C121 downsample removes the documented share of values — partial

downsample(X, r) of the experiments package removes the share r of the values of each series and keeps the others in order.

*How*: index arithmetic of slices, roll and reshape in Fortran order

* `Fruits.C121_kept_partial` (Props/Corb2; pcq)
* `Fruits.C121_proportion_partial` (Props/Corb2; pcq)
* `Fruits.C121_counterexample` (Props/Corb2; pcq)

*Note*: False: every floor(1/r)-th value is kept, so r=1/4 removes three quarters and r=3/4 nothing (proved). Proved: exactly which values are kept.

### C122 upsample doubles the resolution — partial

upsample(X) of the experiments package returns series of length 2l-1 with the old values at the even times and the mean of two neighbours between them.

*How*: index arithmetic of slices, roll and reshape in Fortran order

* `Fruits.C122_upsample_partial` (Props/Corb2; pcq)
* `Fruits.C122_false_for_dimensions` (Props/Corb2; pcq)
* `Fruits.C122_counterexample` (Props/Corb2; pcq)

*Note*: True in one dimension; false for more, where the dimensions are mixed up (proved for all such data).

### C123 replace_nan replaces exactly the NaNs — partial

replace_nan(X) of the experiments package keeps all values that are not NaN and replaces a NaN by the last observed value of its series, or by 0 if there is none; replace_nan(X, v) replaces every NaN by v and keeps all other values. No NaN is left.

*How*: induction over the places visited / over the classes

* `Fruits.C123_last_observed` (Props/Corb3; pcq)
* `Fruits.C123_value_partial` (Props/Corb3; pq)
* `Fruits.C123_counterexample` (Props/Corb3; pcq)

*Note*: With a value given infinite values are replaced, too (proved counterexample); without a value the property is proved in full.

### C124 multisine generates balanced classes — proved

multisine of the experiments package returns a training and a test set of the wanted sizes; the labels are 0..n_classes-1 in order, the numbers of series of two classes differ by at most one, and every series is the sum of sines amplitude*sin(frequency*x+phase) of its class at equidistant points of [0,2*pi], plus its noise.

*How*: induction over the places visited / over the classes

* `Fruits.C124_multisine` (Props/Corb3; pcq)

*Note*: Frequencies are numbers (the code also allows functions); noise is an arbitrary function of series and time.

### C125 label at the level 'prepared' describes a slice — partial

fruit.label(i, 'prepared') returns the labels of all preparateurs of slice i, for every slice of the fruit, and raises an IndexError behind the last slice.

*How*: induction over the nested loops: a loop with countdown finds the c-th element of the list of all places

* `Fruits.C125_prepared_partial` (Props/Corb6; pcq)
* `Fruits.C125_one_each_partial` (Props/Corb6; pcq)
* `Fruits.C125_out_of_range` (Props/Corb6; pcq)
* `Fruits.Demo.C125_false` (Props/Corb7; pcq)
* `Fruits.Demo.C125_wrong_slice` (Props/Corb7; pcq)

*Note*: False: the index counts the preparateurs of all slices, so label(1, 'prepared') may describe slice 0 or raise (proved). Proved: what is returned for every index, and the property for fruits with one preparateur in each slice.

### C126 split_index finds the place of every feature — proved

For a fruit whose slices all have an ISS, split_index(fruit, c, level) of the experiments package is the c-th place (slice, iterated sum, sieve, feature), (slice, iterated sum) or (slice) of the fruit in lexicographic order, and a ValueError for a negative index or behind the last place; at the level 'features' this is the place of column c of transform.

*How*: induction over the nested loops: a loop with countdown finds the c-th element of the list of all places

* `Fruits.C126_features` (Props/Corb4; pcq)
* `Fruits.C126_iterated_sums` (Props/Corb4; pcq)
* `Fruits.C126_prepared` (Props/Corb4; pcq)
* `Fruits.featurePaths_columns` (Props/Corb4; pcq)
* `Fruits.Demo.C126_no_iss` (Props/Corb7; pcq)

*Note*: For a slice without ISS split_index raises a TypeError.

### C127 The callback of Fruitalyser saves the intermediate results — proved

In every successful call of transform, the callback of the Fruitalyser never raises and holds afterwards, for each slice in order, exactly what it was asked to save: the data after all preparateurs, all iterated sums, and the features of the slice.

*How*: the events of `transform` (C82) are replayed on the callback; C73 and C75 give values and labels

* `Fruits.C127_saved` (Props/Corb5; pcq)

### C128 Fruitalyser.plot shows what its title says — partial

After transform_all with saved results, plot(level, index) draws the prepared test data of slice `index`, or the iterated sum number `index` of the test data, and its title is the label of exactly these data.

*How*: the events of `transform` (C82) are replayed on the callback; C73 and C75 give values and labels

* `Fruits.C128_iterated_sums_partial` (Props/Corb5; pcq)
* `Fruits.C128_prepared_partial` (Props/Corb6; pcq)
* `Fruits.C128_default` (Props/Corb6; pcq)
* `Fruits.C128_not_saved` (Props/Corb16; pcq)
* `Fruits.C128_negative` (Props/Corb16; pcq)
* `Fruits.Demo.C128_wrong_title` (Props/Corb7; pcq)
* `Fruits.Demo.C128_raises` (Props/Corb7; pcq)

*Note*: True for iterated sums; for prepared data the right data are drawn, but the title may describe another slice or raise (proved), see C125.

### C129 Fruitalyser.features is a correctly labelled table — proved

After transform_all, features(indices, source) returns one column for each index, in order: its name is the label of this feature of the fruit, its entries are the values of this feature for the series of the training set, of the test set, or of both one below the other; without indices all features are listed, and an index that is no feature raises.

*How*: the events of `transform` (C82) are replayed on the callback; C73 and C75 give values and labels

* `Fruits.C129_features` (Props/Corb6; pcq)
* `Fruits.sourceFeatures_spec` (Props/Corb6; pcq)

*Note*: Without postprocessing; the label of every chosen column exists.

### C130 Fruitalyser.classify uses features of one fit — partial

In every history of calls, classify raises a RuntimeError before transform_all has returned; afterwards it trains the classifier on the training features and scores it on the test features of one and the same fit of the fruit, restricted to the given columns, whatever else the user did with the fruit or with failing calls of transform_all.

*How*: induction over histories of the analyser; case analysis of `transform_all`

* `Fruits.C130_classify_partial` (Props/Corb7; pcq)
* `Fruits.Demo.C130_mixed_fits` (Props/Corb7; pcq)

*Note*: False after a transform_all that raises: train and test features of different fits are mixed (proved). Proved if the last transform_all returned.

### C131 load numbers the classes of arff files consistently — proved

For a dataset in .arff files load returns one class number for each record; two records, both of one set or one of each, get the same number exactly if they have the same label, and labels are numbered 0, 1, 2, ... in order of their first appearance, training set first.

*How*: loop invariant of the collected labels: no duplicates, in order of appearance

* `Fruits.C131_labels` (Props/Corb8; pcq)

*Note*: Labels are compared for equality only.

### C132 load returns the series of arff files — proved

If all records of the training file have one shape and all records of the test file have one shape, load returns exactly the series of the records, in order.

*How*: loop invariant of the collected labels: no duplicates, in order of appearance

* `Fruits.C132_records` (Props/Corb8; pcq)
* `Fruits.C132_repeated` (Props/Corb8; pq)

*Note*: Records of other shapes are not always refused: one with a single dimension is silently repeated (proved).

### C133 load reads text files — partial

For two text files whose lines list the same number of numbers, separated by commas or by white space, load detects the separator and returns for every line the first number as class and the others as series with one dimension, NaNs replaced unless keep_nan is set.

*How*: the text parser is inverted on lines joined by the separator

* `Fruits.C133_text_partial` (Props/Corb8; pcq)
* `Fruits.C133_white_space` (Props/Corb17; pcq)
* `Fruits.C133_not_a_number` (Props/Corb17; pq)
* `Fruits.C133_not_a_number_test` (Props/Corb17; pcq)
* `Fruits.C133_single_series` (Props/Corb8; pcq)

*Note*: False for a file with a single line: IndexError (proved for all such files). Proved for at least two lines. What float() accepts is a parameter.

### C134 The cache of load is transparent — partial

load(..., cache=True) returns what load without a cache returns, in every sequence of calls, for any interleaving of several processes and after a process was stopped at any point.

*How*: small-step semantics of processes and files with arbitrary schedules and crashes; invariant: a complete cache file has the content of the arff files

* `Fruits.C134_sequential_partial` (Props/Corb9; pcq)
* `Fruits.C134_schedules_partial` (Props/Corb9; pcq)
* `Fruits.C134_crash` (Props/Corb9; pcq)
* `Fruits.C134_broken_forever` (Props/Corb9; pq)
* `Fruits.C134_race` (Props/Corb9; pcq)

*Note*: Never wrong data (proved for all schedules and crash points), but a FileNotFoundError while another process saves, and forever after a crash between two saves (proved).

### C135 load_all yields the wanted datasets in order — proved

load_all(path, datasets) loads each directory in path that is listed in datasets (every directory if there is no list) exactly once, in increasing order of names, and nothing else.

*How*: properties of sorting and filtering

* `Fruits.C135_load_all` (Props/Corb9; pcq)

### C136 Runs of fruitify do not influence each other — proved

In a state after any history of calls, each of the mean_over_n_runs runs of fruitify has the score that it would have as the only run, up to the random numbers drawn: the fruit is fitted on the training series only, the classifier is trained on their features and scored on the features of the test series. The mean of the scores is returned (NaN for no runs); if all draws have the same outcome, the number of runs does not matter.

*How*: C77: after any fits a new fit forgets them; induction over runs, splits, choices and datasets

* `Fruits.C136_once` (Props/Corb10; pq)
* `Fruits.C136_runs` (Props/Corb10; pcq)
* `Fruits.C136_mean` (Props/Corb10; pcq)
* `Fruits.C136_one_run` (Props/Corb10; pcq)

*Note*: Random numbers are an arbitrary sequence; each run sees it from some position on. Classifiers are arbitrary functions of features and classes: a classifier that keeps state between calls of fit is not modelled. Timings are not modelled.

### C137 decide_which_fruit returns the best choice — proved

The function made by decide_which_fruit returns an unfitted deep copy of the first choice (its second fruit, if it is a pair) whose mean accuracy over its splits and runs is largest, where every experiment has the score that it would have if no other choice had been tried; if a class has a single sample, it returns a deep copy of the first choice and fits nothing.

*How*: C77: after any fits a new fit forgets them; induction over runs, splits, choices and datasets

* `Fruits.C137_choose` (Props/Corb11; pcq)
* `Fruits.C137_single` (Props/Corb11; pcq)
* `Fruits.C137_none` (Props/Corb11; pcq)

*Note*: At least one split and one run. train_test_split is an arbitrary function of the number of the call.

### C138 decide_which_fruit asks for splits that exist — partial

If every class has at least two samples, the validation size is adapted such that a stratified split into training and validation set with at least as many samples as classes in both sets exists, for every given validation_size.

*How*: arithmetic of ceilings; every class has two samples

* `Fruits.C138_stratified_partial` (Props/Corb11; pcq)
* `Fruits.C138_iff` (Props/Corb11; pcq)
* `Fruits.C138_false` (Props/Corb11; pcq)

*Note*: False for large sizes: the split exists if and only if validation_size <= 1 - classes/samples (proved); in particular for all sizes up to 1/2.

### C139 fruitify_all writes complete tables — proved

After each dataset the result file of fruitify_all holds the rows of exactly the datasets finished so far, in order, whichever dataset later fails to load or to be classified; if all succeed, the table of all rows is returned. For a given fruit each row has the accuracy that fruitify has for this dataset alone, up to the random numbers drawn. NaN values in the data count as 0, infinite ones as the largest number.

*How*: C77: after any fits a new fit forgets them; induction over runs, splits, choices and datasets

* `Fruits.C139_table` (Props/Corb12; pcq)
* `Fruits.C139_alone` (Props/Corb12; pcq)
* `Fruits.C139_numbers` (Props/Corb12; pq)

*Note*: The state of the file between two writes; the writing itself is one step. Columns of timings are not modelled.

### C140 fruitify_all does not overwrite results — partial

The result file of fruitify_all has the given name, with the ending .csv added if it is missing, or results_fruits.csv; if such a file exists, the time is added to the name, so an existing result file is never overwritten.

*How*: case analysis

* `Fruits.C140_fresh_partial` (Props/Corb12; pcq)
* `Fruits.C140_name` (Props/Corb12; pcq)
* `Fruits.C140_ending` (Props/Corb12; pcq)
* `Fruits.C140_false` (Props/Corb12; pcq)

*Note*: False for calls within one second: the file with the time in its name is overwritten (proved). Otherwise proved.

### C141 Different simple words have different iterated sums — partial

Two simple words are equal (==) exactly when ISS gives the same iterated sums for both on all data: equal words have the same sums over each semiring, and unequal words are told apart by some dataset.

*How*: closed forms of C01 and C02; a series as long as the word isolates one monomial, and one entry 2 isolates one exponent

* `Fruits.C141_equal` (Props/Words6; pcq)
* `Fruits.C141_reals_partial` (Props/Words6; pcq)
* `Fruits.C141_eq_partial` (Props/Words6; pcq)
* `Fruits.C141_arctic_false` (Props/Words6; pcq)
* `Fruits.C141_arctic_unequal` (Props/Words6; pcq)
* `Fruits.C141_cancel_false` (Props/Words6; pcq)

*Note*: Equal words have equal sums (proved for all semirings and weightings). Over the reals the sums are the same exactly when each dimension has the same exponent in each extended letter (proved), which is == for words with the same highest dimension (proved); false for [1] and [12-2], which are unequal with equal sums. False over the arctic semiring: [1][1] and [11] have the same sums on all data (proved).

### C142 == of words is an equivalence relation — partial

w == w for every word, u == v implies v == u, u == v and v == w imply u == w, and equal words stay equal when both are multiplied with the same string.

*How*: case analysis on the kinds of words

* `Fruits.C142_simple_partial` (Props/Words6; pq)
* `Fruits.C142_multiply` (Props/Words6; pcq)
* `Fruits.C142_general_false` (Props/Words6; pq)
* `Fruits.C142_mixed_false` (Props/Words6; pq)

*Note*: True for simple words (proved). False for general words: a Word is not equal to itself; comparing a Word with a SimpleWord raises NotImplementedError (proved).

### C143 Fruitalyser.plot draws the series of each class — partial

With mean=True one line is drawn for each class, in increasing order of the classes: the mean of its series, between their pointwise minimum and maximum (bounds). Otherwise the first nseries series of each class (or of the dataset) are drawn; an IndexError is raised exactly if there are fewer. The legend names the class of each line.

*How*: specification of means, maxima and minima by sums and IsGreatest/IsLeast; induction over the classes

* `Fruits.C143_mean` (Props/Corb14; pcq)
* `Fruits.C143_plot_input` (Props/Corb16; pcq)
* `Fruits.C143_plot_per_class` (Props/Corb16; pcq)
* `Fruits.C143_per_class` (Props/Corb14; pcq)
* `Fruits.C143_first` (Props/Corb14; pcq)
* `Fruits.C143_legend_partial` (Props/Corb14; pcq)
* `Fruits.C143_legend_false` (Props/Corb14; pcq)

*Note*: The lines are proved. The legend is false unless the classes are 1, 2, ..., k: it numbers the classes, so class 0 of the classes 0 and 1 is called Class 1 (proved).

### C144 scatter_features shows every sample once — partial

The groups of scatter_features are the classes in increasing order; each has as points the two features of exactly its samples, and in both histograms each of its samples is counted in exactly one bar. The bars of the classes are stacked: those of a class start where the bars of all classes before end.

*How*: every number between first and last edge lies in exactly one interval; induction over the groups

* `Fruits.C144_groups` (Props/Corb14; pcq)
* `Fruits.C144_targets` (Props/Corb16; pq)
* `Fruits.C144_stack_partial` (Props/Corb14; pcq)
* `Fruits.C144_stack_false` (Props/Corb14; pcq)

*Note*: Points and heights of the bars are proved (features that are numbers, nbins >= 2). The bars are stacked for the first two classes only: from the third class on they start at the heights of the previous class alone (proved for all data).

### C145 test_classifier compares its test cases fairly — proved

After transform_all, the accuracy plotted for each test case is the one classify returns for a new classifier with this setting, independent of the other test cases, and the red line marks the first test case with the largest accuracy; an exception of a classifier is passed on.

*How*: induction over the test cases; specification of the first maximum

* `Fruits.C145_scores` (Props/Corb14; pcq)
* `Fruits.C145_errors` (Props/Corb14; pq)
* `Fruits.C145_new` (Props/Corb14; pq)

*Note*: A classifier is an arbitrary function of its setting and the features. Before transform_all: AttributeError (proved).

### C146 Iterated sums of a series are determined by those of its parts — proved

If a dataset is cut in time into two parts, the unweighted iterated sum of a word over the whole is, up to the cut, that of the first part; after the cut it is the sum over all splittings of the word into prefix and suffix of (the prefix over the whole first part) times (the suffix over the second part) - Chen's identity; over the arctic and Bayesian semirings with maximum and the semiring product instead.

*How*: induction on the length of the word: splitting the outermost sum (maximum) at the cut

* `Fruits.C146_chen_reals` (Props/Chen; pcq)
* `Fruits.C146_chen_arctic` (Props/Chen; pcq)
* `Fruits.C146_chen_bayesian` (Props/Chen; pcq)

*Note*: SINGLE mode without weighting; Bayesian for non-negative data (as C03).

### C147 Iterated sums depend only on the dimensions a word names — proved

Renaming the dimensions of the data and accordingly in the words, or adding further dimensions that the words do not name, does not change the iterated sums, for each semiring and weighting whose lookup does not depend on the dimensions.

*How*: letter values agree; the kernels depend on the letter values only (closed forms of the kernels)

* `Fruits.C147_dimensions` (Props/Dims; pcq)

*Note*: SINGLE mode; all semirings except the argmax variant of Arctic.

### C148 The getters of a slice return its seeds — partial

get_preparateurs(), get_iss() and get_sieves() return the seeds added to the slice since the last clear, in order, an add that raises having added the seeds before the faulty one. No other call changes them. A slice whose seeds were changed, by whatever means, must be fitted again before transform.

*How*: induction over the arguments; frames of the calls (C79, C87)

* `Fruits.C148_add_partial` (Props/Getters1; pcq)
* `Fruits.C148_others_partial` (Props/Getters1; pcq)
* `Fruits.C148_clear_partial` (Props/Getters1; pcq)
* `Fruits.Demo.C148_false` (Props/Getters1; pcq)

*Note*: The contents of the lists are proved. The getters return the lists of the slice themselves: changing such a list after a fit is not noticed, and e.g. an appended sieve gives columns of zeros (proved).

### C149 ISS never reads or writes outside its arrays — partial

ISS.transform and batch_transform never access memory outside the arrays given to the compiled kernels: data, alpha, lookup and result. (numba does not check indices, so such an access is silent.)

*How*: bounds-checked copies of the kernels (Verif/Checked.lean), loop invariants on lengths and, for argmax, on the positions; converse by running into the failing letter

* `Fruits.C149_inside_partial` (Props/Checked1; pcq)
* `Fruits.C149_outside` (Props/Checked1; pcq)
* `Fruits.Demo.C149_false` (Props/Checked1; pcq)

*Note*: A second model of the kernels that checks every access is proved equal to the unchecked one, for all semirings (with argmax), weightings and modes, if no letter names a dimension beyond those of the data and alpha has one entry per extended letter. Without that the claim is false: nothing checks the dimensions (proved for every such word), and alpha set before multiply is too short (example).

### C150 The compiled preparateurs never read or write outside their arrays — partial

RIN, JLD, MAV and RPE, after fit, never access memory outside the arrays given to their compiled kernels: data, kernel, bias, dimensions and result, whatever was drawn in fit.

*How*: bounds-checked copies (Verif/Checked2.lean); the fitted arrays have the sizes the loops need (groupSizes sums to the dimensions, draws within range)

* `Fruits.C150_rin_partial` (Props/Checked2; pcq)
* `Fruits.C150_jld_partial` (Props/Checked2; pq)
* `Fruits.C150_mav` (Props/Checked2; pq)
* `Fruits.C150_rpe` (Props/Checked2; pcq)
* `Fruits.C150_rin_outside` (Props/Checked2; pcq)
* `Fruits.C150_jld_outside` (Props/Checked2; pcq)
* `Fruits.Demo.C150_false` (Props/Checked3; pcq)

*Note*: As C149, with bounds-checked copies of the kernels. MAV and RPE: in full. RIN and JLD: for data with at least as many dimensions as the training data and, for RIN with a given kernel, as many kernel rows. Otherwise false: proved for all data with fewer dimensions than the training data.

### C151 CosWISS never reads or writes outside its arrays — partial

CosWISS, after fit, never accesses memory outside the arrays given to its compiled functions, plain, with a network and with dropout, whatever was drawn in fit.

*How*: bounds-checked copies; loop invariant on lengths, lengths of the rows of _get_weightings, range of the dropped indices

* `Fruits.C151_coswiss_partial` (Props/Checked3; pcq)
* `Fruits.Demo.C151_false` (Props/Checked3; pcq)

*Note*: As C149, for batch_transform: data with the dimensions of the training data, letters within them and, with dropout, series at least as long as the training series. Otherwise false: a longer training series makes the kernel write outside its array (example).

### C152 The compiled sieves and the shared cache never read or write outside their arrays — proved

The compiled functions of MAX, MIN, CUR, AVG, STD, NPI, MPI, XPI, LPI and of the shared cache never access memory outside their arrays (data, cuts, quantiles, result), for all cuts and quantiles, including cuts beyond the length and unsorted or repeated quantiles; for the cache on series with at least one dimension and one time step.

*How*: bounds-checked copies (Verif/Checked3.lean); j*K+k < J*K, one row of cuts per series

* `Fruits.C152_sieves` (Props/Checked4; pcq)
* `Fruits.C152_cache` (Props/Checked4; pcq)
* `Fruits.Demo.C152_empty` (Props/Checked4; pcq)

*Note*: As C149. On series without time steps _coquantile reads outside its array (example).

### C153 The rounding error of iterated sums is bounded — proved

Computed in floating point (every operation rounded with relative error at most u; no overflow or underflow, operations in the order of the source), an entry of ISS.transform differs from the exact iterated sum by at most (1+u)^N - 1 times the iterated sum of the absolute values, where N counts the factors of the word plus n+2 per extended letter (Reals); with similar N for Arctic and Bayesian and for any weighting. For non-negative data this is a relative error of about N*u.

*How*: invariant `computed value is within (1+u)^k - 1 of the exact one, relative to the value for absolute data` through every loop of the kernels (NearV)

* `Fruits.C153_exact` (Props/Rounded1; pcq)
* `Fruits.C153_exact_iss` (Props/Rounded1; pcq)
* `Fruits.C153_reals` (Props/Rounded2; pcq)
* `Fruits.C153_reals_relative` (Props/Rounded2; pcq)
* `Fruits.C153_arctic` (Props/Rounded2; pcq)
* `Fruits.C153_bayesian` (Props/Rounded2; pcq)
* `Fruits.C153_reals_weighted` (Props/Rounded1; pcq)
* `Fruits.C153_arctic_weighted` (Props/Rounded1; pcq)
* `Fruits.C153_bayesian_weighted` (Props/Rounded1; pcq)
* `Fruits.C153_factor` (Props/Rounded2; pcq)

*Note*: A second, rounded model of the six fast kernels (Verif/Rounded.lean) over an arbitrary format; Verif/RoundedBinary.lean shows that round-to-nearest with p+1 significant bits is one. No overflow, underflow, NaN, no fastmath re-association, no argmax. With a weighting the exponential is the machine's. SINGLE mode for users; kernels in all modes.

### C154 Prefixes, causality and monotonicity of iterated sums hold bit for bit in floating point — proved

In floating point as in C153 (operations in the order of the source; C160 is about reordering by fastmath): each of the last m rows is bit for bit the result for the prefix of the word; the result for the first m time steps is bit for bit the first m time steps of the result; Arctic and Bayesian iterated sums never decrease in time, nor do Reals iterated sums of words in which every dimension has even exponents or non-negative data (which also are never negative).

*How*: the rounded kernels as a recursion over the letters; relation `same function tabulated to different lengths`; monotone rounding, idempotence for the accumulators

* `Fruits.C154_prefix` (Props/Rounded3; pcq)
* `Fruits.C154_causal` (Props/Rounded3; pcq)
* `Fruits.C154_kernel_prefix` (Props/Rounded3; pcq)
* `Fruits.C154_kernel_causal` (Props/Rounded3; pcq)
* `Fruits.C154_monotone_arctic` (Props/Rounded3; pcq)
* `Fruits.C154_monotone_bayesian` (Props/Rounded3; pcq)
* `Fruits.C154_monotone_reals` (Props/Rounded3; pcq)

*Note*: The rounded model of C153.

### C155 The cache in floating point — proved

Computed in floating point (as in C153, with the operations in the order of the source), the cached norm sums of a series of n time steps differ from the exact L1/L2 variation by at most (1+u)^(n+2) - 1 times the variation, start at 0 and never decrease. The computed q-coquantile c satisfies c <= n, c >= 1 for q >= 0, c = n for q >= 1, never decreases in q, and time step t lies before c if and only if the computed norm sum up to t is at most the computed q times the total.

*How*: the cache as the rounded accumulator of rounded terms (accum_near), monotone rounding, idempotence

* `Fruits.C155_exact` (Props/Rounded4; pcq)
* `Fruits.C155_sums` (Props/Rounded4; pcq)
* `Fruits.C155_coquantiles` (Props/Rounded4; pcq)

*Note*: The rounded model of C153, extended by Verif/RoundedSeeds.lean.

### C156 Time-warping invariance holds bit for bit in floating point — proved

In floating point as in C153 (operations in the order of the source): repeating samples of a series (any time warp) repeats, bit for bit, the computed Reals iterated sums of its computed increments, the computed Arctic and Bayesian iterated sums of the series, the cached norm sums, and moves the coquantiles with the samples, although the sums are accumulated over more, differently placed terms.

*How*: adding a rounded zero to a machine number changes nothing; relation `value at t of the warped series is the value at phi(t)` through the kernels

* `Fruits.C156_reals` (Props/Rounded5; pcq)
* `Fruits.C156_max` (Props/Rounded5; pcq)
* `Fruits.C156_cache` (Props/Rounded5; pcq)

*Note*: The rounded model. Reals: letters with at least one positive and no negative exponent (as in exact arithmetic). A weighting must give lookups that are warped like the data.

### C157 Counting sieves are exact in floating point — proved

In floating point as in C153: NPI and LPI (increments=1) with integer cuts and quantiles among -1, 0, 1 return in floating point exactly the numbers of exact arithmetic; NPI() is the number of the time points t >= 1 with x_{t-1} < x_t. The features of PPV and CPV are the exact features, rounded once: in [0, 1], monotone in the quantile, 1 if all values reach the quantile and 0 if and only if none does.

*How*: u < 1, so rounding keeps signs; rounding of 0 and 1 is exact

* `Fruits.C157_counts` (Props/Rounded6; pcq)
* `Fruits.C157_default` (Props/Rounded6; pcq)
* `Fruits.C157_proportions` (Props/Rounded6; pcq)
* `Fruits.C157_ppv` (Props/Rounded6; pcq)

*Note*: The rounded model. Float cuts depend on rounded coquantiles (C155) and may differ from the exact ones; with the cut positions fixed the counts are exact.

### C158 NRM in floating point — proved

Computed in floating point as in C153 (NRM is numpy code, each operation of which is rounded on its own), NRM keeps the shape, gives values in [0, 1], zeros for a constant block (dimension, or series with scale_dim), exactly 0 and exactly 1 somewhere in any other block; it keeps the order of the values of a block, each value differs from the exact one by three roundings, and applying it again changes no bit.

*How*: closed form of the rounded NRM; monotone rounding, signs kept, x/x = 1

* `Fruits.C158` (Props/Rounded6; pcq)

*Note*: The rounded model; max - min must not overflow.

### C159 Time warping and words with arbitrary letters — proved

Words whose letters look at one time point at a time (DIM, ABS and user-defined letters): repeating samples of a series repeats the samples of its Arctic iterated sums in the same way, and so for the Reals iterated sums of its increments (INC) if each extended letter has a letter that is zero at zero; features of warp-invariant sieves do not change. For Bayesian iterated sums of such words this does not hold, even on positive data.

*How*: closed forms of the generic kernels (sums over increasing tuples, maxima over weak chains) and the tuple bijections of C12 and C95; counterexample for Bayesian

* `Fruits.C159_arctic` (Props/Warp4; pcq)
* `Fruits.C159_reals` (Props/Warp4; pcq)
* `Fruits.C159_arctic_features` (Props/Warp4; pcq)
* `Fruits.C159_reals_features` (Props/Warp4; pcq)
* `Fruits.C159_dim_abs` (Props/Warp4; pq)
* `Fruits.C159_bayesian_false` (Props/Warp4; pcq)

*Note*: The Bayesian half is the proved counterexample C159_bayesian_false. Letters that look at other time points (e.g. a moving average) are excluded by the hypothesis.

### C160 fastmath changes iterated sums by rounding errors only — proved

The kernels are compiled with fastmath, so the compiler may regroup and reorder sums, products and maxima, fuse operations, multiply by reciprocals and factor out. Whatever it does, the Reals, Arctic and Bayesian iterated sums it returns obey the error bounds of C153 (with two roundings per division), two compilations differ by at most twice the bound, and for integer data without division the result is exact, whatever the compiler does, as long as the iterated sums of the absolute values are integers of the format (2^53 for float64).

*How*: symbolic execution; every rewrite keeps the exact value, the value for absolute data and does not raise the number of roundings per product (Rw.sound); induction over evaluations (Ev.near, Ev.exact); invariants of the kernels as in C153

* `Fruits.Expr.C160_source` (Props/FastMath1; pcq)
* `Fruits.Expr.C160_source_iss` (Props/FastMath1; pcq)
* `Fruits.Expr.C160_reals` (Props/FastMath1; pcq)
* `Fruits.Expr.C160_reals_relative` (Props/FastMath1; pcq)
* `Fruits.Expr.C160_arctic` (Props/FastMath1; pcq)
* `Fruits.Expr.C160_bayesian` (Props/FastMath1; pcq)
* `Fruits.Expr.C160_reals_weighted` (Props/FastMath1; pcq)
* `Fruits.Expr.C160_arctic_weighted` (Props/FastMath1; pcq)
* `Fruits.Expr.C160_bayesian_weighted` (Props/FastMath1; pcq)
* `Fruits.Expr.C160_integers_reals` (Props/FastMath2; pcq)
* `Fruits.Expr.C160_integers_arctic` (Props/FastMath2; pcq)
* `Fruits.Expr.C160_integers_bayesian` (Props/FastMath2; pcq)
* `Fruits.Expr.C160_reproducible` (Props/FastMath2; pcq)
* `Fruits.Fp.binary_integers` (Props/FastMath2; pcq)

*Note*: Symbolic execution of the kernels (Verif/FastMath.lean); the compiler's freedom is the relation Fast: Rw (rewrites) and Ev (each operation rounded or fused). Not among the rewrites: dividing by a product, distributing a product over a sum; values of exp are constants. C160_source shows that the source order is one of the possible compilations.

### C161 Bayesian iterated sums of exp(x) are exponentials of Arctic iterated sums of x — proved

ISS.transform with the semiring Bayesian, applied to the data exp(X), returns the entrywise exponentials of what it returns with Arctic for X: for all words (also with negative exponents), in SINGLE and EXTENDED mode, without or with a weighting (total or not) that gives the same numbers for both.

*How*: closed forms of the kernels (KernelLemmas); a monotone function commutes with running maxima and exp turns sums into products

* `Fruits.C161_logarithm` (Props/Logarithm; pcq)

*Note*: exp is any function with exp(x+y) = exp(x)exp(y), positive values and monotone; simple words. SameWeights: no weighting, or one with the same lookup for both datasets.

### C162 Iterated sums are stable and monotone in the data — proved

If two datasets differ by at most eps in every entry, their Arctic iterated sums differ by at most N*eps, N the sum of the absolute exponents of the word, independently of the length of the series, and so do the features END, MAX and MIN (integer cuts) computed from them; Reals iterated sums of data in [-M, M] differ by at most C(t+1, p)*N*eps*M^(N-1). With non-negative exponents larger data give larger Arctic iterated sums, and for non-negative data larger and non-negative Reals and Bayesian iterated sums.

*How*: closed forms of the kernels; chains of maxima move by at most the sum of the letter changes; products of k bounded factors (Degree); number of increasing tuples is a binomial coefficient

* `Fruits.C162_arctic_stable` (Props/Stability; pcq)
* `Fruits.C162_arctic_monotone` (Props/Stability; pcq)
* `Fruits.C162_monotone` (Props/Stability; pcq)
* `Fruits.C162_reals_stable` (Props/Stability; pcq)
* `Fruits.C162_segments_stable` (Props/Stability; pcq)
* `Fruits.C162_pipeline` (Props/Stability; pcq)

*Note*: Simple words. Reals stability in SINGLE mode without weighting and with non-negative exponents; the other parts in both modes with weightings that give the same numbers for both datasets.

### C163 Iterated sums and running a series backwards — proved

Reversing a series in time and reversing the order of the extended letters of a word leaves the iterated sum over the whole series, the last value of the returned array, unchanged, in the semirings Reals, Arctic and (non-negative data) Bayesian.

*How*: bijection of the index tuples i -> n-1-i in opposite order on the closed forms C01, C02, C03

* `Fruits.C163_reversal` (Props/Reversal; pcq)

*Note*: SINGLE mode, no weighting; negative exponents only where the data are not zero.

### C164 Integer arrays are treated like the same numbers stored as floats — partial

A dataset given as an integer array leads to the results of the same numbers given as a float array, or to a TypeError. True for iterated sums (a TypeError for every SimpleWord, exact results for general words) and for all preparateurs except NRM, which returns 1 at the maxima and 0 elsewhere, and NEW, which truncates the values of the wrapped preparateur to integers, both without any error.

*How*: typed arrays (DType.lean): structural recursion over preparateurs; the values of shifting and dropping preparateurs are values of the input or zero; closed form of NRM

* `Fruits.C164_integers_partial` (Props/DType1; pcq)
* `Fruits.C164_sequences_partial` (Props/DType1; pcq)
* `Fruits.C164_floats` (Props/DType1; pcq)
* `Fruits.C164_no_type_error_partial` (Props/DType1; pcq)
* `Fruits.C164_compiled_raises` (Props/DType1; pcq)
* `Fruits.C164_iss` (Props/DType1; pq)
* `Fruits.C164_nrm_truncates` (Props/DType1; pcq)
* `Fruits.C164_new_truncates` (Props/DType1; pcq)
* `Fruits.C164_counterexample` (Props/DType1; pcq)

*Note*: False for NRM and NEW, which truncate silently (proved for all data). Proved for all other preparateurs, NEW around preparateurs that keep integers, sequences and iterated sums. Only int64 and float64, no integer overflow; FUN is taken to return floats.

### C165 Transforming never changes the data it is given — proved

preparateur.transform(X), and a sequence of preparateurs in a slice, leave the array X and every other array that existed before the call unchanged, whether the call returns or raises; the returned array is a new one, so that changing it later does not reach X; it has the content that the value models of the other properties give; and a second call with the same X has the same outcome.

*How*: state-passing model of assignments to arrays (Memory.lean), refinement of the value model: old objects are kept, induction over preparateurs, rounds of INC and sequences

* `Fruits.C165_memory` (Props/Memory1; pcq)
* `Fruits.C165_sequences` (Props/Memory1; pcq)
* `Fruits.C165_unchanged` (Props/Memory1; pcq)
* `Fruits.C165_twice` (Props/Memory1; pcq)
* `Fruits.C165_separate` (Props/Memory1; pcq)

*Note*: Memory of array objects (Memory.lean). A function given to FUN or SPE is assumed not to write to arrays and to return a new one. INC with depth 0, which its constructor refuses, is the only model value that returns its input.

### C166 Features do not depend on the unit of measurement — proved

If all data, for fitting and for transforming, are multiplied by the same positive number c (metres instead of millimetres), then: a fruit each of whose slices removes the unit (NRM, or STD with std_eps=0, after preparateurs that keep the unit) raises the same exception in fit or returns exactly the same features; every preparateur that keeps the unit (INC, MAV, LAG, CTS, QTC, RIN, RPE, DIL, WIN, DOT, PDD, STD(var=False), JLD without bias, DIM and NEW around them) returns c times its old result and learns in the new unit; a fitted sieve returns its old features times c^0 (NPI, XPI, LPI, PPV, CPV), c^1 (MAX, MIN, END, MPI) or c^2 (CUR, AVG, STD). STD with its default std_eps=1e-5 does not remove the unit.

*How*: equivariance lemmas for all list functions under x -> c*x (order, quantiles, coquantiles, cumulative sums), seed by seed; for fruits a simulation between the two runs: the worlds differ only in what the leading preparateurs have learned

* `Fruits.C166_fruit` (Props/Units4; pcq)
* `Fruits.C166_prep_keeps` (Props/Units2; pcq)
* `Fruits.C166_prep_removes` (Props/Units2; pcq)
* `Fruits.C166_prep_fit` (Props/Units2; pcq)
* `Fruits.C166_sieve_fit` (Props/Units1; pcq)
* `Fruits.C166_sieve_transform` (Props/Units1; pcq)
* `Fruits.C166_std_eps` (Props/Units4; pcq)

*Note*: Conditions as in the statement, as predicates on the seeds (KeepsUnit, RemovesUnit, UnitFree, UnitCache); an object must not be used both before and after the unit is removed, because it learns twice. Not covered: L1/L2 weightings of the raw data with relative=True or a transform, and SPE(step_transform). Counterexample for the default of STD proved.

### C167 Fitting to all series does not depend on their order — partial

If every slice of a fruit has fit_sample_size=1.0 and its PPV and CPV sieves have sample_size=1, then fitting it to the same series in another order (with the same random numbers) leaves the fruit in exactly the same state, and fit_transform returns the same row for the same series.

*How*: two runs in lockstep: the prepared data and every iterated sum of one run are a permutation of those of the other (from the locality of C97), sums and sorted lists do not see it, so each seed learns the same; counterexample by evaluation

* `Fruits.C167_fit_partial` (Props/Order3; pcq)
* `Fruits.C167_fit_transform_partial` (Props/Order3; pcq)
* `Fruits.C167_total_partial` (Props/Order3; pcq)
* `Fruits.C167_generic` (Props/Order2; pcq)
* `Fruits.C167_prep_fit` (Props/Order1; pcq)
* `Fruits.C167_sieve_fit` (Props/Order1; pcq)
* `Fruits.Demo.Order.C167_counterexample` (Props/Order3; pcq)

*Note*: False for seeds that read the cached data of a series (WIN, SPE with step_transform, L1/L2 weightings of the raw data): the sample of all the series is a random permutation of them, but the cache is in the original order (the defect of C85). Proved for all other seeds; C167_total_partial shows that both fits succeed for fruits configured for the data.

### C168 Features do not depend on the level of the series — proved

If a constant is added to every dimension of every series (a different one for each, in the training data and in the data to transform), then a fruit each of whose slices removes the level (INC with zero padding, STD, NRM or FFN with center=True, first or after LAG, CTS, NEW and DIM of such preparateurs) has exactly the same state after fit, or fit raises the same exception, and transform returns exactly the same features, whatever ISS, weightings of the raw data, cuts by coquantiles, further preparateurs and sieves follow. With one constant per series this also holds with NRM(scale_dim=True). MAV before INC does depend on the level, because of the zeros that MAV puts in front.

*How*: relation between data sets (row plus a constant), lemma for every list function; the cache is a function of increments; two runs in lockstep until the preparateur that removes the constants, equal afterwards

* `Fruits.C168_fruit` (Props/Offset2; pcq)
* `Fruits.C168_fruit_series` (Props/Offset2; pcq)
* `Fruits.C168_removes` (Props/Offset1; pcq)
* `Fruits.C168_keeps` (Props/Offset1; pcq)
* `Fruits.C168_removes_series` (Props/Offset1; pcq)
* `Fruits.C168_keeps_series` (Props/Offset1; pcq)
* `Fruits.C168_fit` (Props/Offset1; pcq)
* `Fruits.C168_mav_counterexample` (Props/Offset3; pcq)

*Note*: Conditions as in the statement, as predicates on the preparateurs (RemovesOffset, KeepsOffset). RIN and JLD, which remove or keep levels for suitable kernels, are not in the classes.

### C169 A missing value affects only the iterated sums that use it — partial

If values of a dataset are missing (NaN), the iterated sum of a word for series i at time t is still the number it is without them as long as the missing values are in other series, at later times, in dimensions the word does not name, or at times no index tuple of the word up to t uses. With Reals the sum is NaN as soon as an index tuple uses a missing value; Arctic and Bayesian skip missing values after the first time step.

*How*: the kernels of Semiring.lean, which need only the operations they use, are executed on numbers with NaN; simulation with the exact run that tracks the set of spoiled times (Reals), chained running maxima with a maximum that skips NaN on the right (Arctic, Bayesian)

* `Fruits.C169_none_missing` (Props/MissingFruit2; pcq)
* `Fruits.C169_elsewhere_partial` (Props/Missing3; pcq)
* `Fruits.C169_reals` (Props/Missing1; pcq)
* `Fruits.C169_arctic` (Props/Missing2; pcq)
* `Fruits.C169_bayesian` (Props/Missing2; pcq)
* `Fruits.C169_generic` (Props/Missing4; pcq)
* `Fruits.C169_generic_arctic` (Props/Missing4; pcq)
* `Fruits.C169_arctic_counterexample` (Props/Missing3; pcq)
* `Fruits.C169_reals_counterexample` (Props/Missing3; pcq)
* `Fruits.C169_paths_counterexample` (Props/Missing4; pcq)

*Note*: False: Arctic adds 0*NaN for dimensions the word does not name (up to the highest one it names), and the compiled Reals kernel multiplies letter k also with the first k values, which no index tuple uses; words with arbitrary letters return NaN where the compiled Arctic and Bayesian kernels skip. Proved: exactly when each kernel returns NaN, the number otherwise, and independence of everything else. The compiled kernels are run on numbers with NaN in source order; fastmath formally lets a compiler ignore NaN. Infinities and Arctic(argmax=True) are not covered.

### C170 A missing value in an iterated sum is skipped by the sieves and concerns only its own series — partial

If iterated sums have missing values (NaN), a fitted sieve computes the features of a series from this series alone and from its known values: MAX and MIN give the extreme of the known values of a segment in a band, NPI, MPI, XPI, LPI and CUR count, average or sum the known entries of their view, PPV and CPV treat a missing value as one below all quantiles, and END is NaN only if the value it takes is missing; fitting a sieve to data with missing values in some series leaves the features of the other series what they are without them.

*How*: the sieves are modelled a second time on numbers with NaN (MissingSieve.lean); a missing value lies in no band, hence filters, sums and runs are those over the set of times with known values in the band; refinement theorem to Sieve.lean without missing values; sorting with NaN last for the fitted quantiles

* `Fruits.C170_none_missing` (Props/MissingSieve1; pcq)
* `Fruits.C170_max` (Props/MissingSieve3; pcq)
* `Fruits.C170_min` (Props/MissingSieve3; pcq)
* `Fruits.C170_cur` (Props/MissingSieve3; pcq)
* `Fruits.C170_npi` (Props/MissingSieve3; pcq)
* `Fruits.C170_mpi` (Props/MissingSieve3; pcq)
* `Fruits.C170_xpi` (Props/MissingSieve3; pcq)
* `Fruits.C170_lpi` (Props/MissingSieve3; pcq)
* `Fruits.C170_end` (Props/MissingSieve4; pcq)
* `Fruits.C170_ppv` (Props/MissingSieve4; pcq)
* `Fruits.C170_other_series` (Props/MissingSieve4; pq)
* `Fruits.C170_fit_partial` (Props/MissingSieve5; pcq)
* `Fruits.C170_nan_quantile_partial` (Props/MissingSieve5; pcq)
* `Fruits.C170_ppv_nan_quantile_partial` (Props/MissingSieve5; pcq)
* `Fruits.C170_fit_counterexample` (Props/MissingSieve5; pcq)
* `Fruits.C170_ppv_counterexample` (Props/MissingSieve5; pcq)
* `Fruits.C170_max_counterexample` (Props/MissingSieve5; pcq)
* `Fruits.C170_cut_counterexample` (Props/MissingSieve5; pcq)

*Note*: False through fit: one NaN in the training data makes every quantile that needs data NaN for all series (the others are sorted before it), so that increment sieves, PPV and CPV return 0 there; MAX and MIN raise for the whole dataset if a segment has no known value, and a float cut of a series with a NaN falls to 0. Proved: the exact features of all sieves after a fit with known quantiles, for every pattern of missing values; independence of other series; the exact quantiles after a fit with missing values and the zero features they cause; agreement with the model of Sieve.lean if nothing is missing. Not modelled: infinite entries, AVG and STD beyond their use of CUR (C170_other_series and C170_none_missing cover them).

### C171 A missing value stays a missing value in prepared data and concerns only its own series — partial

If data have missing values (NaN), every entry a fitted preparateur returns is NaN or the value it has for the data without gaps, whatever numbers stand for the missing ones, and the same exceptions are raised; what is returned for a series depends on this series alone (INC and MAV give NaN exactly at the times whose window meets a gap); fitting a preparateur to data with missing values in some series leaves the result for the other series what it is without them.

*How*: the row functions of Prep.lean run unchanged on numbers with NaN (MissingPrep.lean; they need only the operations they use); a simulation relation between the two models (entry by entry: equal, or NaN) is carried through every preparateur by induction, with no NaN it gives agreement, with any it gives soundness; a second relation (same shape, same series i) gives locality

* `Fruits.C171_none_missing` (Props/MissingPrep3; pcq)
* `Fruits.C171_sound_partial` (Props/MissingPrep3; pcq)
* `Fruits.C171_fit_known` (Props/MissingPrep3; pcq)
* `Fruits.C171_other_series` (Props/MissingPrep4; pq)
* `Fruits.C171_inc` (Props/MissingPrep3; pcq)
* `Fruits.C171_mav` (Props/MissingPrep3; pcq)
* `Fruits.C171_std` (Props/MissingPrep5; pq)
* `Fruits.C171_nrm` (Props/MissingPrep5; pq)
* `Fruits.C171_win` (Props/MissingPrep6; pcq)
* `Fruits.C171_std_fit_counterexample` (Props/MissingPrep3; pq)
* `Fruits.C171_qtc_fit_counterexample` (Props/MissingPrep3; pq)
* `Fruits.C171_win_counterexample` (Props/MissingPrep3; pcq)
* `Fruits.C171_counterexample` (Props/MissingPrep4; pcq)
* `Fruits.C171_counterexample_fit` (Props/MissingPrep4; pcq)

*Note*: False through WIN, which returns zeros for a series with a gap in its first dimension, and through the fits of STD(separately=False) and QTC, which one missing value of any series spoils for all (proved in general and with concrete witnesses). Proved: soundness for all settings and states without missing values and without WIN (with WIN if the first dimensions have no gaps), locality including WIN, agreement with the model without NaN (transform and fit), the exact NaN pattern of INC, MAV, STD(separately=True) and NRM(). Not modelled: FFN, RIN, RDW, JLD, SPE, RPE, FUN.

### C172 A missing value concerns only the features of its own series — proved

If two datasets of the same shape agree in a series, and differ arbitrarily in values and missing values (NaN) of the other series, a fitted fruit that returns features for both returns one row per series and the same features for the common series; features that are missing are returned as 0, and without missing values the features are those for numbers.

*How*: composition of the models with NaN (MissingFruit.lean): the relation of C171 (same shape, same series i) is carried through the chain of preparateurs, the iterated sums of series i are computed from it alone, C170_other_series gives the columns of every sieve; induction over sieves, iterated sums and slices

* `Fruits.C172_other_series` (Props/MissingFruit1; pq)
* `Fruits.C172_features` (Props/MissingFruit2; pcq)
* `Fruits.C172_none_missing` (Props/MissingFruit2; pcq)
* `Fruits.C172_raises` (Props/MissingFruit1; pcq)

*Note*: C172_features says what the features are (missing ones become 0), C172_none_missing that without missing values they are those of the models of C01ff. For fitted states (fitting to data with missing values is C170 and C171). C172_raises shows that a series with missing values can make the whole call raise, which the property excludes. Simplified: one ISS per slice with simple words and weights that depend on the time only.

