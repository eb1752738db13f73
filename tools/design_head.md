# Formal model of irkri/fruits in Lean 4

This file is written by `tools/mkdesign.py` from `tools/design_head.md` (sections 1–5), `properties.jsonl`,
`MANIFEST.json` and the output of `#print axioms` (section 6).

## 1. Shape of the model

The model lives in `lean/Verif/*.lean`; the theorems that the manifest claims are in `lean/Verif/Props/*.lean`.
It is a shallow, branch-by-branch model: every Python function becomes a total computable Lean function over lists and
plain structures, exceptions become `Except Err`, mutation becomes a returned new state (a heap of cells with addresses
where objects are shared), loops become folds or structural recursion, and a Python loop that need not terminate takes
fuel and its non-termination is stated separately. Every definition carries a comment that cites the file and the lines
in `/repo` and says what it simplifies. `python3 tools/coverage.py` lists the functions of `/repo` without a citation.

| module | models |
|---|---|
| `Np`, `Arr`, `Py` | the numpy primitives the code uses (cumsum, roll, slices with clipping, sort, quantile, searchsorted…), three-dimensional arrays, exceptions and strings |
| `Semiring`, `ISS` | `iss/semiring.py` (all numba kernels line by line, generic `Word` path, argmax), `iss/iss.py` |
| `CachePlan` | `iss/cache.py` |
| `Word`, `WordOps`, `Objects` | `iss/words/{word,letters,creation}.py`: parsing, printing, algebra, `of_weight`, registry; object identity and iterator cursors |
| `Cache` | `cache.py` (`SharedSeedCache`, coquantiles), `seed.py` |
| `Prep`, `PrepFit` | all classes of `preparation/{transform,filter,wrapper}.py`: settings, fit, transform, copy |
| `Sieve` | all classes of `sieving/{segment,increment,implicit,wrapper}.py` |
| `Weighting`, `CosWISS` | `iss/weighting.py`, `iss/cos.py` |
| `Fruit` | `fruit.py`, `callback.py`: heap of seeds, slices and fruits, all public methods as steps of a state machine; generic in the meaning `Sem` of the seeds |
| `Builtin` | the library's own seeds as an instance of `Sem` |
| `Equality` | `__eq__` of preparateurs and words (`preparation/*.py`, `word.py`) |
| `UserCode` | user-defined letters (`letter` decorator) and semirings |
| `Texts`, `Summary` | `str`, `label` and `summary` of preparateurs, sieves, slices and fruits |
| `Spec` | *not* a model: the independent specification (iterated sums as sums over index tuples, monomials, chains, time warping…) |

## 2. Trusted base

* Lean 4.33.0's kernel; Mathlib's definitions used in statements (`List`, `Finset.sum`, fields, `IsGreatest`, …).
* Axioms: only `propext`, `Classical.choice`, `Quot.sound`; the table in section 6 gives them for each theorem. No
  axiom, `sorry`-like placeholder, `native_decide` or `bv_decide` occurs.
* The reading of the Python source recorded in the citations (the code is not run here), and the semantics of numpy
  primitives as written in `Np.lean`/`Arr.lean`.
* The specification in `Spec.lean` and the statements of the theorems.

## 3. Simplifications and what is not modelled

* **Numbers.** `float64` is an arbitrary linearly ordered field, with `FloorRing` where the code calls `int`/`floor`.
  Exception: C153 and later properties marked so use a second model with a rounding after every operation (`Verif/Rounded*.lean`:
  any monotone rounding with relative error `u`, e.g. `p+1` significant bits with unbounded exponent). In that
  model the operations are those of the source, in their order; C160 lifts this for the iterated sums (`Verif/FastMath.lean`: `fastmath`
  re-association, contraction, reciprocals, factoring out). Overflow, underflow, `float32` frequencies and `int32` overflow are not modelled. `±inf` is modelled
  for quantile boundaries of sieves (`WithBot (WithTop R)`), NaN/inf for `nan_to_num` (`Fl R`), NaN in the iterated sums
  of C169 (`Verif/Missing.lean`, `Mv R`), NaN in the sieves of C170 (`Verif/MissingSieve.lean`),
  NaN in the preparateurs of C171 (`Verif/MissingPrep.lean`; not FFN, RIN, RDW, JLD, SPE, RPE, FUN) and in the fruits of C172 (`Verif/MissingFruit.lean`), truncation of integer arrays
  where it matters (`Indices(relative=False)`, `NEW`). `exp`, `sin`, `cos`, `sqrt`, `pow`, `log`, `π` are parameters with
  the laws used as hypotheses (`ExpLike`, `SqrtLaw`, `TrigLaw`, `CosLaw`); examples instantiate them with Mathlib's real
  functions. Division by zero is excluded by hypotheses in the statements.
* **Arrays.** Lists of lists; rectangular shape is a hypothesis. The code reads the shape of the data from the first
  series, datasets have at least one series and one dimension.
* **Parallelism.** The functions are modelled sequentially; C113 proves for every `prange` loop that any interleaving of its
  iterations, one read or write of a number at a time, gives the same array. Trusted: sequentially consistent memory.
* **Arrays are values**, except in `Verif/Memory.lean` (C165), where they are objects that assignments change. Integer arrays: only in `Verif/DType.lean` (C164).
* **Randomness.** Any generator `Rng` whose draws have the documented range (`Valid`); state is a counter, so a theorem
  quantifies over every sequence of draws. Rejection loops take fuel.
* **`set` iteration order.** Any permutation of the deduplicated list.
* **Cache.** Proved (C35) that a shared cache answers like a fresh one for the same input; the model of `Fruit` uses that.
* **Text of numbers** (`str(float)`) is a parameter `FloatText`, injective where needed. `T.Lawful` (injectivity of the
  printed text into strings) restricts `R` to countable fields, which is the case for `float64`; `ratText` is an instance.
* **Callbacks** do not raise or mutate the fruit. A seed whose `fit` fails is left unchanged in the model.
* **User code** (`FUN`, user letters, user weightings transforms, custom shift functions) is an arbitrary pure function;
  `FUN` keeps the number of series.
* Not modelled: `experiments/` (except `fruit_twi.py`, `fruit_general.py`, `fruit_reduced.py`, as the lists of their calls, and the parts of `corbeille` named in the comments of `CorbData.lean`, `CorbTools.lean`, `CorbLoad.lean` and `CorbChoose.lean`), `tests/`, `fruits/__init__` re-exports, deprecation warnings, printing to
  a terminal, numba compilation and its errors, out-of-bounds reads in compiled code (they raise in the model).

## 4. How properties that are false of the code are treated

If the code does not have a property (57 of the list), the negation is proved with a concrete witness
(`…_counterexample` or a named theorem) and the largest part that is true is proved as `…_partial`; the manifest says `partial`.

## 5. Findings: places where the code differs from its documentation

Those marked (P) are proved in the model.

1. `FruitSlice.copy()` drops `fit_sample_size` (P); `STD._copy` drops `std_eps` (P); segment/increment sieves' `_copy` drop
   `coquantile_norm`, and `fit` works on copies (P); copies of some PPV/CPV raise or mix up their constants (P).
2. Sieves `AVG` and `STD` run `CUR._backend` (P). Sieve `INC` ignores its depth (P). `CPV` misses a strip that starts at index 0 (P).
   `END` returns `len(cut)` columns while `nfeatures` counts `len(cut)*(len(q)-1)` (P); cut 0 gives the last value (P).
   `MAX`/`MIN` raise on an empty band. Labels of sieves use the unsorted cuts/quantiles (P).
3. `MAV(-1)` always raises (P). `INC` with float shift and `zero_padding=False` raises (P). `PDD()` is the identity for n ≥ 3 (P).
   `DIL` with more clusters than implemented → IndexError. `RIN` reads `X[i,j]` instead of `X[i,dims[j]]` (P), `force_sum_one` leaves [-1,1] (P),
   `RIN()` has the zero kernel (P). `JLD` adds its bias once per input dimension.
4. `_calculate_ISS` with `batch_size=0` never ends (P). `CachePlan` identifies words by their string and ignores `alpha` (P).
   The argmax mode counts rows wrongly in labels; weighted argmax ignores the weights; SINGLE argmax raises (P).
5. `Word.copy` and `SimpleWord.copy` lose `alpha` (P); `multiply` after setting `alpha` leaves a wrong length (P).
   `alternate_sign` is wrong from dimension 10 (P). `of_weight(0)` raises (P). `replace_letters` drops negative exponents (P). Letter 0 breaks
   products (P). Iterators keep their cursor on the object, so nested loops break (P). `word.multiply(word)` never ends.
   `letter(f, name="X")` registers nothing and returns a decorator (P).
6. The Bayesian semiring is strict for general words and non-strict for simple words (P). Weightings are ignored for general words (P).
7. `Seed.fit/transform` leave a stale cache when they raise (P). In `FruitSlice.fit` the cache is built from all series but used
   with the sampled ones (P). The samples of `fit_sample_size` ≥ 2 raise (P).
8. A failed `fit` leaves the flags of the previous fit: `transform` returns a mixture (P). `on_sieve` gets rows instead of columns (P).
   `ISS.copy` shares the list of words (P). `Fruit.label` out of range raises IndexError, negative RuntimeError (P).
9. `CosWISS._get_weightings` uses only the first digit of binomial coefficients, so it is wrong from exponent 5 on (P).
   Unfitted with `ffn_size`/`dropout` → AttributeError; words added after fit → IndexError.
10. `Indices(relative=False)` is `[0,…,0,scale]` because `NRM` truncates an integer array (P).
11. `==` of preparateurs: base class always False (`DIL`, `FFN`, `DIM`, `NEW` are not equal to themselves) (P), `WIN`/`DOT`/`PDD` raise
    for other types (P), `STD` ignores `std_eps` (P), `1 == 1.0` makes `INC(1) == INC(1.0)` although they behave differently (P).
12. The text of `STD` hides `std_eps` (P). All features of a `PPV`/`CPV` have the same label (P). The summary of a slice without
    ISS has a line of 76 characters and an empty one (P).
13. `SPE(step_transform=…)` broadcasts the cached steps of all series: in a slice fitted on a sample of one series the sample silently becomes
    all training series during `fit`, other sample sizes raise. A `CosWISS` with `ffn_size` that is not the first ISS of its slice is fitted on the prepared
    dimensions but applied to one. `CosWISS(dropout=…)` writes the dropped time steps without a check if the series are shorter than those of `fit`.
    `MAX`/`MIN` with quantiles raise if a band is empty; a copy of `PPV(segments=True)` can pair a quantile with the wrong `constant` flag, after which `fit` raises.
14. `JLD(f)` for a float `f` produces ⌊bound⌋+1 dimensions, so one more than its documented ceiling when the bound is an integer, e.g. for one
    input dimension (P).
15. `PPV(2.0)` is accepted but can never be fitted (P); `PPV(segments=True)` with mixed flags pairs them with the wrong quantiles (P).
    `CUR(q=…)` learns quantiles of the series but applies them to second increments.
16. Experiments package (`corbeille.data`): `downsample(X, r)` keeps every ⌊1/r⌋-th value instead of removing the share `r` (P); `upsample` mixes up
    the dimensions of multivariate series (P); `implant_stuttering` stutters the dimensions of a series independently, so it is no time
    warp for several dimensions (P); `replace_nan(X, value)` also replaces infinite values (P).
17. `Fruit.label(i, "prepared")` counts preparateurs instead of slices (P), so `Fruitalyser.plot("prepared", i)` has the wrong title or raises (P);
    `split_index` raises a `TypeError` for a slice without ISS (P); after a `transform_all` that raises, `classify` mixes the training
    features of the new fit with the test features of the old one (P).
18. The cache of `load` is neither crash safe nor safe for several processes: after a stop between two of its four files every `load` with `cache=True`
    raises a `FileNotFoundError` (P); `load` raises an `IndexError` for a text file with a single series (P); records of an `.arff` file with one
    dimension are silently repeated (P).
19. `decide_which_fruit` asks for an impossible stratified split if `validation_size > 1 - classes/samples` (P), against its documentation (and, in
    `sklearn`, a possible stratified split need not have a representative of every class in the smaller part; not modelled); `fruitify_all` called three times
    within a second overwrites a result file (P).
20. `Word == Word` is always False, even for a word and itself, and `Word == SimpleWord` raises (P); `SimpleWord("[1]")` and `SimpleWord("[12-2]")` are
    unequal with the same iterated sums (P); over the arctic semiring `[1][1]` and `[11]` are the same feature twice (P).
21. `Fruitalyser.plot` numbers the classes in its legend, so class 0 is called `Class 1` (P); `scatter_features` does not stack the histograms of more than
    two classes (P).
22. `get_preparateurs`, `get_iss` and `get_sieves` return the internal lists: a sieve appended to the list of a fitted slice is counted by
    `nfeatures` and never applied, so `transform` returns columns of zeros without an error (P).
23. The compiled kernels do not check indices and `ISS` does not check its words: a letter beyond the dimensions of the data, or a word whose `alpha` was
    set before the last `multiply`, makes them read foreign memory (P). So do `RIN` and `JLD` on data with fewer dimensions than the training data, and
    `CosWISS` with dropout writes outside an array on series shorter than the training series (P).
24. `NRM` on an integer array returns only zeros and ones (`np.zeros_like(X)`), `NEW(p)` truncates the results of `p` to integers; no error is raised (P).
    Everything that is compiled by numba raises a `TypeError` for integer arrays.
25. With `fit_sample_size=1.0` the order of the training series matters for slices with `WIN`, `SPE(step_transform)` or an L1/L2 weighting of the raw data: the
    sample is a random permutation of the series, the cache is not permuted with it (P).
26. NaN in the first value of a dimension makes all `Arctic` sums NaN of every word that names a higher dimension, also if the word does not name this one
    (`0 * nan` is added) (P). The compiled `Reals` kernel returns NaN for `[1][2]` if the first value of dimension 2 is NaN, although no term of the
    sum uses it; the generic kernel returns numbers (P). `Arctic` and `Bayesian` silently skip later NaNs in the
    compiled kernels, but not for words with arbitrary letters (P).
27. One NaN in the data a sieve is fitted to makes all quantiles that need data NaN, for all series: `np.sort` moves them behind infinity, the bands
    change, and increment sieves, `PPV` and `CPV` return 0 for them (P). `MAX` and `MIN` raise for the whole dataset if one segment has only NaNs (P), and a
    float cut of a series with a NaN becomes 0 (P).
28. `STD(separately=False)` fitted to data with one NaN turns every dataset into NaNs, `QTC` fitted to such data leaves every dataset unchanged, and
    `WIN` replaces a series with a NaN in its first dimension by zeros, the NaN included (P).
