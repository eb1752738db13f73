{
 "claims": [
  {
   "property": "C01",
   "status": "proved",
   "theorems": [
    "Fruits.C01_reals_iss"
   ],
   "note": ""
  },
  {
   "property": "C02",
   "status": "proved",
   "theorems": [
    "Fruits.C02_arctic_iss"
   ],
   "note": ""
  },
  {
   "property": "C03",
   "status": "proved",
   "theorems": [
    "Fruits.C03_bayesian_iss"
   ],
   "note": ""
  },
  {
   "property": "C04",
   "status": "proved",
   "theorems": [
    "Fruits.C04_weighted_reals"
   ],
   "note": ""
  },
  {
   "property": "C05",
   "status": "proved",
   "theorems": [
    "Fruits.C05_weighted_arctic"
   ],
   "note": ""
  },
  {
   "property": "C06",
   "status": "proved",
   "theorems": [
    "Fruits.C06_weighted_bayesian"
   ],
   "note": ""
  },
  {
   "property": "C07",
   "status": "proved",
   "theorems": [
    "Fruits.C07_rows_are_prefixes"
   ],
   "note": ""
  },
  {
   "property": "C08",
   "status": "proved",
   "theorems": [
    "Fruits.C08_plain_eq_total"
   ],
   "note": ""
  },
  {
   "property": "C09",
   "status": "partial",
   "theorems": [
    "Fruits.C09_dim_words_partial",
    "Fruits.C09_bayesian_counterexample"
   ],
   "note": "False for the Bayesian semiring with two or more extended letters (proved counterexample): the Word path is strict, the SimpleWord path is not. Proved for Reals and Arctic, and Bayesian words with one extended letter, SINGLE mode."
  },
  {
   "property": "C10",
   "status": "proved",
   "theorems": [
    "Fruits.C10_causal",
    "Fruits.dim_causal",
    "Fruits.abs_causal"
   ],
   "note": "General words: the letters must be causal themselves (DIM and ABS are). Arctic(argmax=True) has another output format and is treated in the argmax properties."
  },
  {
   "property": "C11",
   "status": "proved",
   "theorems": [
    "Fruits.C11_quasi_shuffle"
   ],
   "note": ""
  },
  {
   "property": "C12",
   "status": "proved",
   "theorems": [
    "Fruits.C12_time_warping",
    "Fruits.C12_pipeline",
    "Fruits.C12_iterated_sums",
    "Fruits.C12_end",
    "Fruits.C12_weighting"
   ],
   "note": "Also with raw L1/L2 weightings and with every warp-invariant sieve (C96). The shape of the data is read from the first series, so at least one series and dimension."
  },
  {
   "property": "C13",
   "status": "proved",
   "theorems": [
    "Fruits.C13_homogeneous_reals",
    "Fruits.C13_homogeneous_arctic"
   ],
   "note": ""
  },
  {
   "property": "C14",
   "status": "proved",
   "theorems": [
    "Fruits.C14_monotone_arctic",
    "Fruits.C14_monotone_bayesian",
    "Fruits.C14_monotone_reals"
   ],
   "note": ""
  },
  {
   "property": "C15",
   "status": "proved",
   "theorems": [
    "Fruits.C15_argmax"
   ],
   "note": "EXTENDED mode (SINGLE raises, C16). The row layout is part of the statement."
  },
  {
   "property": "C16",
   "status": "proved",
   "theorems": [
    "Fruits.C16_batches",
    "Fruits.C16_too_large",
    "Fruits.C16_zero_never_ends",
    "Fruits.C16_argmax_single"
   ],
   "note": ""
  },
  {
   "property": "C17",
   "status": "proved",
   "theorems": [
    "Fruits.C17_count"
   ],
   "note": ""
  },
  {
   "property": "C18",
   "status": "proved",
   "theorems": [
    "Fruits.C18_labels_are_prefixes",
    "Fruits.C18_word_index",
    "Fruits.C18_unique_depth"
   ],
   "note": ""
  },
  {
   "property": "C19",
   "status": "proved",
   "theorems": [
    "Fruits.C19_extended_eq_single"
   ],
   "note": ""
  },
  {
   "property": "C20",
   "status": "proved",
   "theorems": [
    "Fruits.C20_label_names_row_single",
    "Fruits.C20_label_names_row_extended",
    "Fruits.C18_labels_are_prefixes"
   ],
   "note": ""
  },
  {
   "property": "C21",
   "status": "partial",
   "theorems": [
    "Fruits.C21_weighted_extended_partial",
    "Fruits.C21_counterexample"
   ],
   "note": "False in general (proved counterexample): CachePlan identifies words by their string, so a second word with the same string and another alpha is dropped. Proved when equal beginnings carry equal alphas."
  },
  {
   "property": "C22",
   "status": "proved",
   "theorems": [
    "Fruits.C22_series_independent"
   ],
   "note": ""
  },
  {
   "property": "C23",
   "status": "proved",
   "theorems": [
    "Fruits.C23_accepts",
    "Fruits.C23_content"
   ],
   "note": ""
  },
  {
   "property": "C24",
   "status": "proved",
   "theorems": [
    "Fruits.C24_permuting",
    "Fruits.C24_equality"
   ],
   "note": ""
  },
  {
   "property": "C25",
   "status": "proved",
   "theorems": [
    "Fruits.C25_multiply",
    "Fruits.C25_associative",
    "Fruits.C25_zero_letter_counterexample"
   ],
   "note": "For words whose letters are non-zero (a letter 0 is proved to break the homomorphism)."
  },
  {
   "property": "C26",
   "status": "proved",
   "theorems": [
    "Fruits.C26_of_weight",
    "Fruits.C26_weight_zero"
   ],
   "note": ""
  },
  {
   "property": "C27",
   "status": "proved",
   "theorems": [
    "Fruits.C27_count"
   ],
   "note": ""
  },
  {
   "property": "C28",
   "status": "partial",
   "theorems": [
    "Fruits.C28_alternate_sign_partial",
    "Fruits.C28_counterexample"
   ],
   "note": "False for words with a letter >= 10 (proved counterexample: the sign is inserted per digit). Proved for letters 1..9."
  },
  {
   "property": "C29",
   "status": "proved",
   "theorems": [
    "Fruits.C29_roundtrip"
   ],
   "note": ""
  },
  {
   "property": "C30",
   "status": "proved",
   "theorems": [
    "Fruits.C30_registry"
   ],
   "note": ""
  },
  {
   "property": "C31",
   "status": "partial",
   "theorems": [
    "Fruits.C31_word_copy_partial",
    "Fruits.C31_alpha_counterexample",
    "Fruits.C31_simple_copy_partial",
    "Fruits.C31_simple_independent",
    "Fruits.C31_simple_alpha_counterexample"
   ],
   "note": "False for a word with an assigned alpha: copy() loses it (proved counterexamples). Everything else of the copy is proved equal and independent."
  },
  {
   "property": "C32",
   "status": "partial",
   "theorems": [
    "Fruits.C32_alpha_length_partial",
    "Fruits.C32_counterexample"
   ],
   "note": "False after multiply() following an alpha assignment (proved counterexample). Proved as an iff over all histories."
  },
  {
   "property": "C33",
   "status": "partial",
   "theorems": [
    "Fruits.C33_iteration_partial",
    "Fruits.C33_nested_counterexample"
   ],
   "note": "False for nested loops over one object (proved counterexample: the cursor is stored on the object). Proved for loops whose body does not iterate over the same object, after any abandoned loop."
  },
  {
   "property": "C34",
   "status": "proved",
   "theorems": [
    "Fruits.C34_replace_letters",
    "Fruits.C34_negative_exponents"
   ],
   "note": ""
  },
  {
   "property": "C35",
   "status": "proved",
   "theorems": [
    "Fruits.C35_history",
    "Fruits.C35_coquantile",
    "Fruits.C35_iss",
    "Fruits.C35_coquantile_two",
    "Fruits.C35_iss_two",
    "Fruits.C35_iss_one",
    "Fruits.C35_given",
    "Fruits.C35_unknown_key"
   ],
   "note": ""
  },
  {
   "property": "C36",
   "status": "proved",
   "theorems": [
    "Fruits.C36_first_request_wins"
   ],
   "note": ""
  },
  {
   "property": "C37",
   "status": "proved",
   "theorems": [
    "Fruits.C37_cut_points",
    "Fruits.C37_monotone"
   ],
   "note": ""
  },
  {
   "property": "C38",
   "status": "partial",
   "theorems": [
    "Fruits.C38_no_cache_left_partial",
    "Fruits.C38_counterexample"
   ],
   "note": "False when the call raises (proved counterexample: no try/finally, the temporary cache stays). Proved for calls that succeed."
  },
  {
   "property": "C39",
   "status": "proved",
   "theorems": [
    "Fruits.C39_increments",
    "Fruits.C39_float_and_callable",
    "Fruits.C39_float_needs_padding"
   ],
   "note": ""
  },
  {
   "property": "C40",
   "status": "proved",
   "theorems": [
    "Fruits.C40_cumsum",
    "Fruits.C40_inverse"
   ],
   "note": ""
  },
  {
   "property": "C41",
   "status": "proved",
   "theorems": [
    "Fruits.C41_mean_zero",
    "Fruits.C41_variance_one",
    "Fruits.C41_fitted"
   ],
   "note": ""
  },
  {
   "property": "C42",
   "status": "proved",
   "theorems": [
    "Fruits.C42_normalises",
    "Fruits.C42_affine_invariant"
   ],
   "note": ""
  },
  {
   "property": "C43",
   "status": "partial",
   "theorems": [
    "Fruits.C43_moving_average_partial",
    "Fruits.C43_minus_one"
   ],
   "note": "False for width -1 (proved: transform always raises). Proved for integer widths >= 1 and floats."
  },
  {
   "property": "C44",
   "status": "proved",
   "theorems": [
    "Fruits.C44_lead_lag"
   ],
   "note": ""
  },
  {
   "property": "C45",
   "status": "proved",
   "theorems": [
    "Fruits.C45_time_shift"
   ],
   "note": ""
  },
  {
   "property": "C46",
   "status": "proved",
   "theorems": [
    "Fruits.C46_quantile_cut",
    "Fruits.C46_idempotent_monotone"
   ],
   "note": ""
  },
  {
   "property": "C47",
   "status": "proved",
   "theorems": [
    "Fruits.C47_dilation",
    "Fruits.C47_count",
    "Fruits.C47_fit_succeeds"
   ],
   "note": "For every valid random source."
  },
  {
   "property": "C48",
   "status": "proved",
   "theorems": [
    "Fruits.C48_window",
    "Fruits.C48_cover"
   ],
   "note": ""
  },
  {
   "property": "C49",
   "status": "proved",
   "theorems": [
    "Fruits.C49_dotting"
   ],
   "note": ""
  },
  {
   "property": "C50",
   "status": "partial",
   "theorems": [
    "Fruits.C50_drop_partial",
    "Fruits.C50_counterexample",
    "Fruits.C50_default_identity"
   ],
   "note": "The closed form holds; the default settings do not drop the stated share of time points, shown by the counterexample."
  },
  {
   "property": "C51",
   "status": "proved",
   "theorems": [
    "Fruits.C51_new",
    "Fruits.C51_new_none",
    "Fruits.C51_dim"
   ],
   "note": ""
  },
  {
   "property": "C52",
   "status": "partial",
   "theorems": [
    "Fruits.C52_window_partial",
    "Fruits.C52_const_kernel",
    "Fruits.C52_counterexample"
   ],
   "note": "The code reads dimension j instead of dims[j] for the current value; the theorem describes the code and agrees with the documentation when the permutation is the identity."
  },
  {
   "property": "C53",
   "status": "partial",
   "theorems": [
    "Fruits.C53_kernel_partial",
    "Fruits.C53_counterexample",
    "Fruits.C53_default_kernel_zero"
   ],
   "note": "force_sum_one leaves [-1,1]; default kernel is zero."
  },
  {
   "property": "C54",
   "status": "partial",
   "theorems": [
    "Fruits.C54_jld_partial",
    "Fruits.C54_rin_partial",
    "Fruits.C54_counterexample"
   ],
   "note": "RIN mixes a wrong dimension."
  },
  {
   "property": "C55",
   "status": "proved",
   "theorems": [
    "Fruits.C55_linear"
   ],
   "note": ""
  },
  {
   "property": "C56",
   "status": "proved",
   "theorems": [
    "Fruits.C56_network",
    "Fruits.C56_offset"
   ],
   "note": "For every random source."
  },
  {
   "property": "C57",
   "status": "proved",
   "theorems": [
    "Fruits.C57_rotation",
    "Fruits.C57_wrong_dims"
   ],
   "note": "sin and cos are parameters with sin^2+cos^2=1."
  },
  {
   "property": "C58",
   "status": "proved",
   "theorems": [
    "Fruits.C58_independent",
    "Fruits.C58_independent_alone",
    "Fruits.C58_other_series_irrelevant"
   ],
   "note": "User functions in FUN have to treat series independently themselves."
  },
  {
   "property": "C59",
   "status": "proved",
   "theorems": [
    "Fruits.C59_partition"
   ],
   "note": ""
  },
  {
   "property": "C60",
   "status": "partial",
   "theorems": [
    "Fruits.C60_columns_partial",
    "Fruits.C60_counterexample"
   ],
   "note": "False for END with more than two quantile values (proved counterexample); proved for every other fitted sieve."
  },
  {
   "property": "C61",
   "status": "proved",
   "theorems": [
    "Fruits.C61",
    "Fruits.C61_max_bands",
    "Fruits.C61_min_bands"
   ],
   "note": ""
  },
  {
   "property": "C62",
   "status": "proved",
   "theorems": [
    "Fruits.C62"
   ],
   "note": ""
  },
  {
   "property": "C63",
   "status": "partial",
   "theorems": [
    "Fruits.C63_cur_partial",
    "Fruits.C63_avg_std_are_cur",
    "Fruits.C63_counterexample"
   ],
   "note": "False for AVG and STD: both run the CUR code (proved). CUR is proved."
  },
  {
   "property": "C64",
   "status": "proved",
   "theorems": [
    "Fruits.C64_counts",
    "Fruits.C64_bins",
    "Fruits.C64_default"
   ],
   "note": ""
  },
  {
   "property": "C65",
   "status": "proved",
   "theorems": [
    "Fruits.C65"
   ],
   "note": ""
  },
  {
   "property": "C66",
   "status": "proved",
   "theorems": [
    "Fruits.C66_mpi",
    "Fruits.C66_xpi",
    "Fruits.C66_product"
   ],
   "note": ""
  },
  {
   "property": "C67",
   "status": "proved",
   "theorems": [
    "Fruits.C67_values",
    "Fruits.C67_segments",
    "Fruits.C67_fit"
   ],
   "note": ""
  },
  {
   "property": "C68",
   "status": "partial",
   "theorems": [
    "Fruits.C68_strips_partial",
    "Fruits.C68_segments_partial",
    "Fruits.C68_counterexample"
   ],
   "note": "False for a strip that starts at the first value (proved counterexample); proved for all other strips."
  },
  {
   "property": "C69",
   "status": "partial",
   "theorems": [
    "Fruits.C69_int",
    "Fruits.C69_inc_partial",
    "Fruits.C69_inc_labels",
    "Fruits.C69_inc_depth",
    "Fruits.C69_counterexample"
   ],
   "note": "False for INC with depth other than 1: the depth is ignored (proved). INT and INC of depth 1 are proved."
  },
  {
   "property": "C70",
   "status": "partial",
   "theorems": [
    "Fruits.C70_label_partial",
    "Fruits.C70_counterexample"
   ],
   "note": "False for unsorted cuts or quantiles (proved counterexample); proved when both are increasing."
  },
  {
   "property": "C71",
   "status": "partial",
   "theorems": [
    "Fruits.C71_prep_partial",
    "Fruits.C71_prep_copy_idempotent",
    "Fruits.C71_std_counterexample",
    "Fruits.C71_iss",
    "Fruits.C71_coswiss",
    "Fruits.C71_sieve_partial",
    "Fruits.C71_ppv_copySafe",
    "Fruits.C71_norm_counterexample",
    "Fruits.C71_ppv_raises",
    "Fruits.C71_flags_counterexample"
   ],
   "note": "False for STD with std_eps, segment sieves with coquantile_norm, some PPV/CPV (proved counterexamples); proved for all other built-in seeds."
  },
  {
   "property": "C72",
   "status": "proved",
   "theorems": [
    "Fruits.C72_independent",
    "Fruits.C72_independent_alone"
   ],
   "note": ""
  },
  {
   "property": "C73",
   "status": "proved",
   "theorems": [
    "Fruits.C73_layout",
    "Fruits.builtin_keepsRows",
    "Fruits.builtin_countsRight",
    "Fruits.builtin_keepsN"
   ],
   "note": "For every history of calls; the hypotheses on seeds are proved for the library's seeds (user functions in FUN keep the number of series). Sieves with a negative number of features are excluded (np.zeros raises)."
  },
  {
   "property": "C74",
   "status": "proved",
   "theorems": [
    "Fruits.C74_chain",
    "Fruits.builtin_countsRight"
   ],
   "note": ""
  },
  {
   "property": "C75",
   "status": "proved",
   "theorems": [
    "Fruits.C75_label",
    "Fruits.C75_label_of_column",
    "Fruits.C75_iterated_label"
   ],
   "note": "Slices need at least one ISS (implied by a successful transform; without one the label string is mangled)."
  },
  {
   "property": "C76",
   "status": "proved",
   "theorems": [
    "Fruits.C76_transform_needs_fit",
    "Fruits.C76_slice_transform_needs_fit"
   ],
   "note": "Assignments to fit_sample_size do not count as configuration changes."
  },
  {
   "property": "C77",
   "status": "proved",
   "theorems": [
    "Fruits.C77_refit",
    "Fruits.C77_slice_refit",
    "Fruits.builtin_refits"
   ],
   "note": "For every history before and after; the random numbers of the two fits are the same. Edits of the settings or words of the fruit's own ISS objects in between are excluded (they change the configuration)."
  },
  {
   "property": "C78",
   "status": "partial",
   "theorems": [
    "Fruits.C78_partial",
    "Fruits.C78_slice_partial",
    "Fruits.C78_first_fit_partial",
    "Fruits.Demo.C78_counterexample"
   ],
   "note": "False when an earlier fit had succeeded: transform then returns a mixture of old and new fits (proved counterexample). Proved: transform raises after a failed fit unless the failing slice and all later ones had been fitted before."
  },
  {
   "property": "C79",
   "status": "partial",
   "theorems": [
    "Fruits.C79_slice_deepcopy_partial",
    "Fruits.C79_fruit_deepcopy_partial",
    "Fruits.Demo.C79_shared_words"
   ],
   "note": "False for in-place changes of the words: the copied ISS objects share the list of words (proved counterexample). Proved for all histories that do not change words of the other object in place."
  },
  {
   "property": "C80",
   "status": "partial",
   "theorems": [
    "Fruits.C80_slice_copy_partial",
    "Fruits.C80_fruit_copy_partial",
    "Fruits.C80_copy_drops_sample"
   ],
   "note": "False for fit_sample_size, which copy() resets (proved); all other settings are kept."
  },
  {
   "property": "C81",
   "status": "proved",
   "theorems": [
    "Fruits.C81_clear_resets",
    "Fruits.C81_new_slice"
   ],
   "note": ""
  },
  {
   "property": "C82",
   "status": "partial",
   "theorems": [
    "Fruits.C82_callbacks_partial",
    "Fruits.Demo.C82_on_sieve_rows"
   ],
   "note": "The order and the arguments of all calls are proved except the argument of on_sieve, which is a slice of rows instead of columns (proved counterexample)."
  },
  {
   "property": "C83",
   "status": "proved",
   "theorems": [
    "Fruits.C83_finite",
    "Fruits.C83_unchanged"
   ],
   "note": "Floating point values are modelled as numbers, two infinities and NaN."
  },
  {
   "property": "C84",
   "status": "proved",
   "theorems": [
    "Fruits.C84_sample",
    "Fruits.C84_fit_uses_sample",
    "Fruits.C84_other_integers"
   ],
   "note": "Any random generator that returns distinct indices in range. Integers other than 1 raise (proved)."
  },
  {
   "property": "C85",
   "status": "partial",
   "theorems": [
    "Fruits.C85_partial",
    "Fruits.builtin_cacheFree",
    "Fruits.Demo.C85_counterexample"
   ],
   "note": "False: with WIN the window of another series is used (proved counterexample). Proved for all slices without WIN, SPE(step_transform) and raw L1/L2 weightings, where fit does not depend on the cache."
  },
  {
   "property": "C86",
   "status": "proved",
   "theorems": [
    "Fruits.C86_slice_alone",
    "Fruits.C86_features"
   ],
   "note": "Random numbers are those drawn for the slice."
  },
  {
   "property": "C87",
   "status": "proved",
   "theorems": [
    "Fruits.C87_current_slice_valid",
    "Fruits.C87_cut",
    "Fruits.C87_copycut",
    "Fruits.C87_switch",
    "Fruits.C87_add",
    "Fruits.C87_get_slice"
   ],
   "note": ""
  },
  {
   "property": "C88",
   "status": "partial",
   "theorems": [
    "Fruits.C88_coswiss_partial",
    "Fruits.C88_network_partial",
    "Fruits.C88_counterexample",
    "Fruits.C88_every_exponent",
    "Fruits.C88_false_from_five"
   ],
   "note": "False for every exponent from 5 on (C88_false_from_five, over the reals: only the first digits of the binomial coefficients and exponents are used; C88_every_exponent gives the sum that is really computed for every exponent). Proved for exponents up to 4 (default 2), all words, frequencies, lengths, with and without total weighting and the random network."
  },
  {
   "property": "C89",
   "status": "proved",
   "theorems": [
    "Fruits.C89_batches",
    "Fruits.C89_label",
    "Fruits.C89_label_range"
   ],
   "note": ""
  },
  {
   "property": "C90",
   "status": "proved",
   "theorems": [
    "Fruits.C90_masked",
    "Fruits.C90_dropout"
   ],
   "note": "C90_masked holds for every exponent; C90_dropout gives the sum over the remaining tuples for exponents up to 4 (limit of C88)."
  },
  {
   "property": "C91",
   "status": "proved",
   "theorems": [
    "Fruits.C91_ramp",
    "Fruits.C91_weights"
   ],
   "note": ""
  },
  {
   "property": "C92",
   "status": "partial",
   "theorems": [
    "Fruits.C92_relative_partial",
    "Fruits.C92_absolute",
    "Fruits.C92_differs"
   ],
   "note": "False for relative=False: NRM truncates the integer ramp (proved closed form and proved difference). Proved for relative=True."
  },
  {
   "property": "C93",
   "status": "proved",
   "theorems": [
    "Fruits.C93_constructor",
    "Fruits.C93_plateaus",
    "Fruits.C93_reverse",
    "Fruits.C93_values",
    "Fruits.C93_blocks"
   ],
   "note": ""
  },
  {
   "property": "C94",
   "status": "proved",
   "theorems": [
    "Fruits.C94_general_reals",
    "Fruits.C94_general_arctic",
    "Fruits.C94_general_bayesian"
   ],
   "note": ""
  },
  {
   "property": "C95",
   "status": "proved",
   "theorems": [
    "Fruits.C95_iterated_sums",
    "Fruits.C95_pipeline",
    "Fruits.C12_weighting"
   ],
   "note": "Words of simple letters (general words: not covered)."
  },
  {
   "property": "C96",
   "status": "proved",
   "theorems": [
    "Fruits.C96_npi_mpi",
    "Fruits.C96_max_min",
    "Fruits.C12_end"
   ],
   "note": ""
  },
  {
   "property": "C97",
   "status": "proved",
   "theorems": [
    "Fruits.C97_library",
    "Fruits.C97_series_alone",
    "Fruits.C97_other_series_irrelevant",
    "Fruits.C97_generic"
   ],
   "note": "transform of the whole dataset succeeds. C97_library has no condition on the seeds except that they are the library's own; C97_series_alone also covers user functions that treat series one by one."
  },
  {
   "property": "C98",
   "status": "partial",
   "theorems": [
    "Fruits.C98_equal_behave_partial",
    "Fruits.C98_copies",
    "Fruits.C98_counterexample_eps",
    "Fruits.C98_counterexample_types"
   ],
   "note": "False for STD objects with different std_eps and for int/float settings of equal value (INC(1) == INC(1.0)), proved counterexamples; proved for all other pairs."
  },
  {
   "property": "C99",
   "status": "partial",
   "theorems": [
    "Fruits.C99_reflexive_partial",
    "Fruits.C99_symmetric",
    "Fruits.C99_transitive",
    "Fruits.C99_raises",
    "Fruits.C99_counterexample"
   ],
   "note": "Reflexivity fails for FUN, FFN, DIL, DIM, NEW and RIN with a constant kernel, comparing WIN, DOT, PDD with another class raises (proved). Symmetry, transitivity and the exact conditions are proved."
  },
  {
   "property": "C100",
   "status": "partial",
   "theorems": [
    "Fruits.C100_copy_equal_partial",
    "Fruits.C100_not_comparable"
   ],
   "note": "False exactly for the objects that are not equal to themselves (proved); proved for all others."
  },
  {
   "property": "C101",
   "status": "proved",
   "theorems": [
    "Fruits.C101_letter",
    "Fruits.C101_letter_in_word",
    "Fruits.C101_misuse"
   ],
   "note": "Names with brackets can be registered but not used in a word string (example). letter(f, name=n) registers nothing."
  },
  {
   "property": "C102",
   "status": "proved",
   "theorems": [
    "Fruits.C102_user_semiring",
    "Fruits.C102_simple_word",
    "Fruits.userMinPlus_means",
    "Fruits.userReals_means"
   ],
   "note": "Before time p-1 (no tuple) the value is the number 0 also if the semiring's zero is another one. Negative exponents of simple words are dropped on this path. Letters have to return arrays of the length of the series."
  },
  {
   "property": "C103",
   "status": "partial",
   "theorems": [
    "Fruits.C103_text_partial",
    "Fruits.C103_behave_partial",
    "Fruits.C103_copy",
    "Fruits.C103_fit",
    "Fruits.C103_counterexample"
   ],
   "note": "False for STD: std_eps is not part of the text (proved counterexample). Proved for all other settings, assuming what the texts of floats and functions of the program look like (TextLaws, satisfiable). CTS shifts are numbers (an int shift is printed like a float)."
  },
  {
   "property": "C104",
   "status": "partial",
   "theorems": [
    "Fruits.C104_slice_partial",
    "Fruits.C104_sieve_partial",
    "Fruits.C104_counterexample"
   ],
   "note": "False for PPV and CPV with several quantiles, all of whose features have the text of the sieve as label (proved). Proved for slices whose words and sieves have different texts without the separators, and for segment sieves with different cuts and quantiles."
  },
  {
   "property": "C105",
   "status": "partial",
   "theorems": [
    "Fruits.C105_slice_partial",
    "Fruits.C105_fruit_partial",
    "Fruits.C105_counterexample"
   ],
   "note": "False for slices without ISS (a line of 76 characters and an empty one, proved for all such slices). Proved for all others; texts with line breaks or longer than a line are excluded from the statement about widths only."
  },
  {
   "property": "C106",
   "status": "proved",
   "theorems": [
    "Fruits.C106_fitted",
    "Fruits.C106_fruit"
   ],
   "note": "Words of simple letters; datasets with at least one series and dimension."
  },
  {
   "property": "C107",
   "status": "proved",
   "theorems": [
    "Fruits.C107_extended_of_weight",
    "Fruits.C107_one_dimension"
   ],
   "note": "Weight at least one (of_weight(0) raises) and at least one dimension; the count is stated for all semirings except Arctic(argmax=True)."
  },
  {
   "property": "C108",
   "status": "proved",
   "theorems": [
    "Fruits.C108_total",
    "Fruits.C108_fruit_twi",
    "Fruits.C108_nfeatures"
   ],
   "note": "The script is modelled as a list of calls."
  },
  {
   "property": "C109",
   "status": "proved",
   "theorems": [
    "Fruits.C109_total",
    "Fruits.C109_columns",
    "Fruits.C109_slice"
   ],
   "note": "SliceFor is the specification of the documented settings; C108_total and w8_for are instances. Division by zero in NRM/STD of constant data gives the field's 0 instead of NaN (floats are not modelled)."
  },
  {
   "property": "C110",
   "status": "proved",
   "theorems": [
    "Fruits.C110_looks",
    "Fruits.C110_fruit",
    "Fruits.C110_slice"
   ],
   "note": "C110_fruit and C110_slice hold for all seeds that satisfy ShownAlike; builtin_shownAlike proves it for the library."
  },
  {
   "property": "C111",
   "status": "proved",
   "theorems": [
    "Fruits.C111_number_of_words",
    "Fruits.C111_two_dimensions",
    "Fruits.C111_two_dimensions_recurrence"
   ],
   "note": ""
  },
  {
   "property": "C112",
   "status": "proved",
   "theorems": [
    "Fruits.C112_general",
    "Fruits.C112_reduced"
   ],
   "note": "The scripts are modelled as lists of calls; exp_hypotheses shows that the constructor calls in the hypotheses succeed."
  },
  {
   "property": "C113",
   "status": "proved",
   "theorems": [
    "Fruits.Par.run_mem",
    "Fruits.Par.C113_iterated_sums",
    "Fruits.Par.C113_coswiss",
    "Fruits.Par.C113_mav",
    "Fruits.Par.C113_rin",
    "Fruits.Par.C113_jld",
    "Fruits.Par.C113_rpe",
    "Fruits.Par.C113_sieves",
    "Fruits.Par.C113_coquantiles",
    "Fruits.Par.C113_norm_sums",
    "Fruits.Par.exists_finished"
   ],
   "note": "Every iteration is a thread; schedules interleave single reads and writes of the shared array (sequentially consistent memory)."
  },
  {
   "property": "C114",
   "status": "partial",
   "theorems": [
    "Fruits.C114_float_partial",
    "Fruits.C114_integer",
    "Fruits.C114_counterexample"
   ],
   "note": "False if the bound is an integer: JLD(f) on one dimension returns one dimension, the bound is 0."
  },
  {
   "property": "C115",
   "status": "proved",
   "theorems": [
    "Fruits.C115_same_as_transform",
    "Fruits.C115_forgets",
    "Fruits.C115_total",
    "Fruits.C115_slice"
   ],
   "note": ""
  },
  {
   "property": "C116",
   "status": "proved",
   "theorems": [
    "Fruits.C116_fit",
    "Fruits.C116_fit_increments",
    "Fruits.C116_use",
    "Fruits.C116_invalid",
    "Fruits.C116_balance"
   ],
   "note": "CUR learns the quantiles of the series although its bands select second increments (as the code does)."
  },
  {
   "property": "C117",
   "status": "partial",
   "theorems": [
    "Fruits.C117_accepts",
    "Fruits.C117_rejects",
    "Fruits.C117_rejects_one",
    "Fruits.C117_fit_partial",
    "Fruits.C117_counterexample",
    "Fruits.C117_counterexample_segments"
   ],
   "note": "False for a single quantile outside of [0,1], which is accepted but can never be fitted, and for segments with mixed flags, which are paired with the wrong quantiles (both proved); also PPV(0.5, constant=[]) and an empty list of quantiles are accepted."
  },
  {
   "property": "C118",
   "status": "proved",
   "theorems": [
    "Fruits.C118_lengthen"
   ],
   "note": ""
  },
  {
   "property": "C119",
   "status": "proved",
   "theorems": [
    "Fruits.C119_stuttering",
    "Fruits.stuttering_warp"
   ],
   "note": "At least one series, dimension and time step."
  },
  {
   "property": "C120",
   "status": "partial",
   "theorems": [
    "Fruits.C120_lengthen",
    "Fruits.C120_stuttering_partial",
    "Fruits.StutterExample.C120_counterexample",
    "Fruits.lengthen_warp"
   ],
   "note": "False for implant_stuttering on series of several dimensions, which stutter independently (proved counterexample). Proved for lengthen, and for implant_stuttering in one dimension."
  },
  {
   "property": "C121",
   "status": "partial",
   "theorems": [
    "Fruits.C121_kept_partial",
    "Fruits.C121_proportion_partial",
    "Fruits.C121_counterexample"
   ],
   "note": "False: every floor(1/r)-th value is kept, so r=1/4 removes three quarters and r=3/4 nothing (proved). Proved: exactly which values are kept."
  },
  {
   "property": "C122",
   "status": "partial",
   "theorems": [
    "Fruits.C122_upsample_partial",
    "Fruits.C122_false_for_dimensions",
    "Fruits.C122_counterexample"
   ],
   "note": "True in one dimension; false for more, where the dimensions are mixed up (proved for all such data)."
  },
  {
   "property": "C123",
   "status": "partial",
   "theorems": [
    "Fruits.C123_last_observed",
    "Fruits.C123_value_partial",
    "Fruits.C123_counterexample"
   ],
   "note": "With a value given infinite values are replaced, too (proved counterexample); without a value the property is proved in full."
  },
  {
   "property": "C124",
   "status": "proved",
   "theorems": [
    "Fruits.C124_multisine"
   ],
   "note": "Frequencies are numbers (the code also allows functions); noise is an arbitrary function of series and time."
  },
  {
   "property": "C125",
   "status": "partial",
   "theorems": [
    "Fruits.C125_prepared_partial",
    "Fruits.C125_one_each_partial",
    "Fruits.C125_out_of_range",
    "Fruits.Demo.C125_false",
    "Fruits.Demo.C125_wrong_slice"
   ],
   "note": "False: the index counts the preparateurs of all slices, so label(1, 'prepared') may describe slice 0 or raise (proved). Proved: what is returned for every index, and the property for fruits with one preparateur in each slice."
  },
  {
   "property": "C126",
   "status": "proved",
   "theorems": [
    "Fruits.C126_features",
    "Fruits.C126_iterated_sums",
    "Fruits.C126_prepared",
    "Fruits.featurePaths_columns",
    "Fruits.Demo.C126_no_iss"
   ],
   "note": "For a slice without ISS split_index raises a TypeError."
  },
  {
   "property": "C127",
   "status": "proved",
   "theorems": [
    "Fruits.C127_saved"
   ],
   "note": ""
  },
  {
   "property": "C128",
   "status": "partial",
   "theorems": [
    "Fruits.C128_iterated_sums_partial",
    "Fruits.C128_prepared_partial",
    "Fruits.C128_default",
    "Fruits.C128_not_saved",
    "Fruits.C128_negative",
    "Fruits.Demo.C128_wrong_title",
    "Fruits.Demo.C128_raises"
   ],
   "note": "True for iterated sums; for prepared data the right data are drawn, but the title may describe another slice or raise (proved), see C125."
  },
  {
   "property": "C129",
   "status": "proved",
   "theorems": [
    "Fruits.C129_features",
    "Fruits.sourceFeatures_spec"
   ],
   "note": "Without postprocessing; the label of every chosen column exists."
  },
  {
   "property": "C130",
   "status": "partial",
   "theorems": [
    "Fruits.C130_classify_partial",
    "Fruits.Demo.C130_mixed_fits"
   ],
   "note": "False after a transform_all that raises: train and test features of different fits are mixed (proved). Proved if the last transform_all returned."
  },
  {
   "property": "C131",
   "status": "proved",
   "theorems": [
    "Fruits.C131_labels"
   ],
   "note": "Labels are compared for equality only."
  },
  {
   "property": "C132",
   "status": "proved",
   "theorems": [
    "Fruits.C132_records",
    "Fruits.C132_repeated"
   ],
   "note": "Records of other shapes are not always refused: one with a single dimension is silently repeated (proved)."
  },
  {
   "property": "C133",
   "status": "partial",
   "theorems": [
    "Fruits.C133_text_partial",
    "Fruits.C133_white_space",
    "Fruits.C133_not_a_number",
    "Fruits.C133_not_a_number_test",
    "Fruits.C133_single_series"
   ],
   "note": "False for a file with a single line: IndexError (proved for all such files). Proved for at least two lines. What float() accepts is a parameter."
  },
  {
   "property": "C134",
   "status": "partial",
   "theorems": [
    "Fruits.C134_sequential_partial",
    "Fruits.C134_schedules_partial",
    "Fruits.C134_crash",
    "Fruits.C134_broken_forever",
    "Fruits.C134_race"
   ],
   "note": "Never wrong data (proved for all schedules and crash points), but a FileNotFoundError while another process saves, and forever after a crash between two saves (proved)."
  },
  {
   "property": "C135",
   "status": "proved",
   "theorems": [
    "Fruits.C135_load_all"
   ],
   "note": ""
  },
  {
   "property": "C136",
   "status": "proved",
   "theorems": [
    "Fruits.C136_once",
    "Fruits.C136_runs",
    "Fruits.C136_mean",
    "Fruits.C136_one_run"
   ],
   "note": "Random numbers are an arbitrary sequence; each run sees it from some position on. Classifiers are arbitrary functions of features and classes: a classifier that keeps state between calls of fit is not modelled. Timings are not modelled."
  },
  {
   "property": "C137",
   "status": "proved",
   "theorems": [
    "Fruits.C137_choose",
    "Fruits.C137_single",
    "Fruits.C137_none"
   ],
   "note": "At least one split and one run. train_test_split is an arbitrary function of the number of the call."
  },
  {
   "property": "C138",
   "status": "partial",
   "theorems": [
    "Fruits.C138_stratified_partial",
    "Fruits.C138_iff",
    "Fruits.C138_false"
   ],
   "note": "False for large sizes: the split exists if and only if validation_size <= 1 - classes/samples (proved); in particular for all sizes up to 1/2."
  },
  {
   "property": "C139",
   "status": "proved",
   "theorems": [
    "Fruits.C139_table",
    "Fruits.C139_alone",
    "Fruits.C139_numbers"
   ],
   "note": "The state of the file between two writes; the writing itself is one step. Columns of timings are not modelled."
  },
  {
   "property": "C140",
   "status": "partial",
   "theorems": [
    "Fruits.C140_fresh_partial",
    "Fruits.C140_name",
    "Fruits.C140_ending",
    "Fruits.C140_false"
   ],
   "note": "False for calls within one second: the file with the time in its name is overwritten (proved). Otherwise proved."
  },
  {
   "property": "C141",
   "status": "partial",
   "theorems": [
    "Fruits.C141_equal",
    "Fruits.C141_reals_partial",
    "Fruits.C141_eq_partial",
    "Fruits.C141_arctic_false",
    "Fruits.C141_arctic_unequal",
    "Fruits.C141_cancel_false"
   ],
   "note": "Equal words have equal sums (proved for all semirings and weightings). Over the reals the sums are the same exactly when each dimension has the same exponent in each extended letter (proved), which is == for words with the same highest dimension (proved); false for [1] and [12-2], which are unequal with equal sums. False over the arctic semiring: [1][1] and [11] have the same sums on all data (proved)."
  },
  {
   "property": "C142",
   "status": "partial",
   "theorems": [
    "Fruits.C142_simple_partial",
    "Fruits.C142_multiply",
    "Fruits.C142_general_false",
    "Fruits.C142_mixed_false"
   ],
   "note": "True for simple words (proved). False for general words: a Word is not equal to itself; comparing a Word with a SimpleWord raises NotImplementedError (proved)."
  },
  {
   "property": "C143",
   "status": "partial",
   "theorems": [
    "Fruits.C143_mean",
    "Fruits.C143_plot_input",
    "Fruits.C143_plot_per_class",
    "Fruits.C143_per_class",
    "Fruits.C143_first",
    "Fruits.C143_legend_partial",
    "Fruits.C143_legend_false"
   ],
   "note": "The lines are proved. The legend is false unless the classes are 1, 2, ..., k: it numbers the classes, so class 0 of the classes 0 and 1 is called Class 1 (proved)."
  },
  {
   "property": "C144",
   "status": "partial",
   "theorems": [
    "Fruits.C144_groups",
    "Fruits.C144_targets",
    "Fruits.C144_stack_partial",
    "Fruits.C144_stack_false"
   ],
   "note": "Points and heights of the bars are proved (features that are numbers, nbins >= 2). The bars are stacked for the first two classes only: from the third class on they start at the heights of the previous class alone (proved for all data)."
  },
  {
   "property": "C145",
   "status": "proved",
   "theorems": [
    "Fruits.C145_scores",
    "Fruits.C145_errors",
    "Fruits.C145_new"
   ],
   "note": "A classifier is an arbitrary function of its setting and the features. Before transform_all: AttributeError (proved)."
  },
  {
   "property": "C146",
   "status": "proved",
   "theorems": [
    "Fruits.C146_chen_reals",
    "Fruits.C146_chen_arctic",
    "Fruits.C146_chen_bayesian"
   ],
   "note": "SINGLE mode without weighting; Bayesian for non-negative data (as C03)."
  },
  {
   "property": "C147",
   "status": "proved",
   "theorems": [
    "Fruits.C147_dimensions"
   ],
   "note": "SINGLE mode; all semirings except the argmax variant of Arctic."
  },
  {
   "property": "C148",
   "status": "partial",
   "theorems": [
    "Fruits.C148_add_partial",
    "Fruits.C148_others_partial",
    "Fruits.C148_clear_partial",
    "Fruits.Demo.C148_false"
   ],
   "note": "The contents of the lists are proved. The getters return the lists of the slice themselves: changing such a list after a fit is not noticed, and e.g. an appended sieve gives columns of zeros (proved)."
  },
  {
   "property": "C149",
   "status": "partial",
   "theorems": [
    "Fruits.C149_inside_partial",
    "Fruits.C149_outside",
    "Fruits.Demo.C149_false"
   ],
   "note": "A second model of the kernels that checks every access is proved equal to the unchecked one, for all semirings (with argmax), weightings and modes, if no letter names a dimension beyond those of the data and alpha has one entry per extended letter. Without that the claim is false: nothing checks the dimensions (proved for every such word), and alpha set before multiply is too short (example)."
  },
  {
   "property": "C150",
   "status": "partial",
   "theorems": [
    "Fruits.C150_rin_partial",
    "Fruits.C150_jld_partial",
    "Fruits.C150_mav",
    "Fruits.C150_rpe",
    "Fruits.C150_rin_outside",
    "Fruits.C150_jld_outside",
    "Fruits.Demo.C150_false"
   ],
   "note": "As C149, with bounds-checked copies of the kernels. MAV and RPE: in full. RIN and JLD: for data with at least as many dimensions as the training data and, for RIN with a given kernel, as many kernel rows. Otherwise false: proved for all data with fewer dimensions than the training data."
  },
  {
   "property": "C151",
   "status": "partial",
   "theorems": [
    "Fruits.C151_coswiss_partial",
    "Fruits.Demo.C151_false"
   ],
   "note": "As C149, for batch_transform: data with the dimensions of the training data, letters within them and, with dropout, series at least as long as the training series. Otherwise false: a longer training series makes the kernel write outside its array (example)."
  },
  {
   "property": "C152",
   "status": "proved",
   "theorems": [
    "Fruits.C152_sieves",
    "Fruits.C152_cache",
    "Fruits.Demo.C152_empty"
   ],
   "note": "As C149. On series without time steps _coquantile reads outside its array (example)."
  },
  {
   "property": "C153",
   "status": "proved",
   "theorems": [
    "Fruits.C153_exact",
    "Fruits.C153_exact_iss",
    "Fruits.C153_reals",
    "Fruits.C153_reals_relative",
    "Fruits.C153_arctic",
    "Fruits.C153_bayesian",
    "Fruits.C153_reals_weighted",
    "Fruits.C153_arctic_weighted",
    "Fruits.C153_bayesian_weighted",
    "Fruits.C153_factor"
   ],
   "note": "A second, rounded model of the six fast kernels (Verif/Rounded.lean) over an arbitrary format; Verif/RoundedBinary.lean shows that round-to-nearest with p+1 significant bits is one. No overflow, underflow, NaN, no fastmath re-association, no argmax. With a weighting the exponential is the machine's. SINGLE mode for users; kernels in all modes."
  },
  {
   "property": "C154",
   "status": "proved",
   "theorems": [
    "Fruits.C154_prefix",
    "Fruits.C154_causal",
    "Fruits.C154_kernel_prefix",
    "Fruits.C154_kernel_causal",
    "Fruits.C154_monotone_arctic",
    "Fruits.C154_monotone_bayesian",
    "Fruits.C154_monotone_reals"
   ],
   "note": "The rounded model of C153."
  },
  {
   "property": "C155",
   "status": "proved",
   "theorems": [
    "Fruits.C155_exact",
    "Fruits.C155_sums",
    "Fruits.C155_coquantiles"
   ],
   "note": "The rounded model of C153, extended by Verif/RoundedSeeds.lean."
  },
  {
   "property": "C156",
   "status": "proved",
   "theorems": [
    "Fruits.C156_reals",
    "Fruits.C156_max",
    "Fruits.C156_cache"
   ],
   "note": "The rounded model. Reals: letters with at least one positive and no negative exponent (as in exact arithmetic). A weighting must give lookups that are warped like the data."
  },
  {
   "property": "C157",
   "status": "proved",
   "theorems": [
    "Fruits.C157_counts",
    "Fruits.C157_default",
    "Fruits.C157_proportions",
    "Fruits.C157_ppv"
   ],
   "note": "The rounded model. Float cuts depend on rounded coquantiles (C155) and may differ from the exact ones; with the cut positions fixed the counts are exact."
  },
  {
   "property": "C158",
   "status": "proved",
   "theorems": [
    "Fruits.C158"
   ],
   "note": "The rounded model; max - min must not overflow."
  },
  {
   "property": "C159",
   "status": "proved",
   "theorems": [
    "Fruits.C159_arctic",
    "Fruits.C159_reals",
    "Fruits.C159_arctic_features",
    "Fruits.C159_reals_features",
    "Fruits.C159_dim_abs",
    "Fruits.C159_bayesian_false"
   ],
   "note": "The Bayesian half is the proved counterexample C159_bayesian_false. Letters that look at other time points (e.g. a moving average) are excluded by the hypothesis."
  },
  {
   "property": "C160",
   "status": "proved",
   "theorems": [
    "Fruits.Expr.C160_source",
    "Fruits.Expr.C160_source_iss",
    "Fruits.Expr.C160_reals",
    "Fruits.Expr.C160_reals_relative",
    "Fruits.Expr.C160_arctic",
    "Fruits.Expr.C160_bayesian",
    "Fruits.Expr.C160_reals_weighted",
    "Fruits.Expr.C160_arctic_weighted",
    "Fruits.Expr.C160_bayesian_weighted",
    "Fruits.Expr.C160_integers_reals",
    "Fruits.Expr.C160_integers_arctic",
    "Fruits.Expr.C160_integers_bayesian",
    "Fruits.Expr.C160_reproducible",
    "Fruits.Fp.binary_integers"
   ],
   "note": "Symbolic execution of the kernels (Verif/FastMath.lean); the compiler's freedom is the relation Fast: Rw (rewrites) and Ev (each operation rounded or fused). Not among the rewrites: dividing by a product, distributing a product over a sum; values of exp are constants. C160_source shows that the source order is one of the possible compilations."
  },
  {
   "property": "C161",
   "status": "proved",
   "theorems": [
    "Fruits.C161_logarithm"
   ],
   "note": "exp is any function with exp(x+y) = exp(x)exp(y), positive values and monotone; simple words. SameWeights: no weighting, or one with the same lookup for both datasets."
  },
  {
   "property": "C162",
   "status": "proved",
   "theorems": [
    "Fruits.C162_arctic_stable",
    "Fruits.C162_arctic_monotone",
    "Fruits.C162_monotone",
    "Fruits.C162_reals_stable",
    "Fruits.C162_segments_stable",
    "Fruits.C162_pipeline"
   ],
   "note": "Simple words. Reals stability in SINGLE mode without weighting and with non-negative exponents; the other parts in both modes with weightings that give the same numbers for both datasets."
  },
  {
   "property": "C163",
   "status": "proved",
   "theorems": [
    "Fruits.C163_reversal"
   ],
   "note": "SINGLE mode, no weighting; negative exponents only where the data are not zero."
  },
  {
   "property": "C164",
   "status": "partial",
   "theorems": [
    "Fruits.C164_integers_partial",
    "Fruits.C164_sequences_partial",
    "Fruits.C164_floats",
    "Fruits.C164_no_type_error_partial",
    "Fruits.C164_compiled_raises",
    "Fruits.C164_iss",
    "Fruits.C164_nrm_truncates",
    "Fruits.C164_new_truncates",
    "Fruits.C164_counterexample"
   ],
   "note": "False for NRM and NEW, which truncate silently (proved for all data). Proved for all other preparateurs, NEW around preparateurs that keep integers, sequences and iterated sums. Only int64 and float64, no integer overflow; FUN is taken to return floats."
  },
  {
   "property": "C165",
   "status": "proved",
   "theorems": [
    "Fruits.C165_memory",
    "Fruits.C165_sequences",
    "Fruits.C165_unchanged",
    "Fruits.C165_twice",
    "Fruits.C165_separate"
   ],
   "note": "Memory of array objects (Memory.lean). A function given to FUN or SPE is assumed not to write to arrays and to return a new one. INC with depth 0, which its constructor refuses, is the only model value that returns its input."
  },
  {
   "property": "C166",
   "status": "proved",
   "theorems": [
    "Fruits.C166_fruit",
    "Fruits.C166_prep_keeps",
    "Fruits.C166_prep_removes",
    "Fruits.C166_prep_fit",
    "Fruits.C166_sieve_fit",
    "Fruits.C166_sieve_transform",
    "Fruits.C166_std_eps"
   ],
   "note": "Conditions as in the statement, as predicates on the seeds (KeepsUnit, RemovesUnit, UnitFree, UnitCache); an object must not be used both before and after the unit is removed, because it learns twice. Not covered: L1/L2 weightings of the raw data with relative=True or a transform, and SPE(step_transform). Counterexample for the default of STD proved."
  },
  {
   "property": "C167",
   "status": "partial",
   "theorems": [
    "Fruits.C167_fit_partial",
    "Fruits.C167_fit_transform_partial",
    "Fruits.C167_total_partial",
    "Fruits.C167_generic",
    "Fruits.C167_prep_fit",
    "Fruits.C167_sieve_fit",
    "Fruits.Demo.Order.C167_counterexample"
   ],
   "note": "False for seeds that read the cached data of a series (WIN, SPE with step_transform, L1/L2 weightings of the raw data): the sample of all the series is a random permutation of them, but the cache is in the original order (the defect of C85). Proved for all other seeds; C167_total_partial shows that both fits succeed for fruits configured for the data."
  },
  {
   "property": "C168",
   "status": "proved",
   "theorems": [
    "Fruits.C168_fruit",
    "Fruits.C168_fruit_series",
    "Fruits.C168_removes",
    "Fruits.C168_keeps",
    "Fruits.C168_removes_series",
    "Fruits.C168_keeps_series",
    "Fruits.C168_fit",
    "Fruits.C168_mav_counterexample"
   ],
   "note": "Conditions as in the statement, as predicates on the preparateurs (RemovesOffset, KeepsOffset). RIN and JLD, which remove or keep levels for suitable kernels, are not in the classes."
  },
  {
   "property": "C169",
   "status": "partial",
   "theorems": [
    "Fruits.C169_none_missing",
    "Fruits.C169_elsewhere_partial",
    "Fruits.C169_reals",
    "Fruits.C169_arctic",
    "Fruits.C169_bayesian",
    "Fruits.C169_generic",
    "Fruits.C169_generic_arctic",
    "Fruits.C169_arctic_counterexample",
    "Fruits.C169_reals_counterexample",
    "Fruits.C169_paths_counterexample"
   ],
   "note": "False: Arctic adds 0*NaN for dimensions the word does not name (up to the highest one it names), and the compiled Reals kernel multiplies letter k also with the first k values, which no index tuple uses; words with arbitrary letters return NaN where the compiled Arctic and Bayesian kernels skip. Proved: exactly when each kernel returns NaN, the number otherwise, and independence of everything else. The compiled kernels are run on numbers with NaN in source order; fastmath formally lets a compiler ignore NaN. Infinities and Arctic(argmax=True) are not covered."
  },
  {
   "property": "C170",
   "status": "partial",
   "theorems": [
    "Fruits.C170_none_missing",
    "Fruits.C170_max",
    "Fruits.C170_min",
    "Fruits.C170_cur",
    "Fruits.C170_npi",
    "Fruits.C170_mpi",
    "Fruits.C170_xpi",
    "Fruits.C170_lpi",
    "Fruits.C170_end",
    "Fruits.C170_ppv",
    "Fruits.C170_other_series",
    "Fruits.C170_fit_partial",
    "Fruits.C170_nan_quantile_partial",
    "Fruits.C170_ppv_nan_quantile_partial",
    "Fruits.C170_fit_counterexample",
    "Fruits.C170_ppv_counterexample",
    "Fruits.C170_max_counterexample",
    "Fruits.C170_cut_counterexample"
   ],
   "note": "False through fit: one NaN in the training data makes every quantile that needs data NaN for all series (the others are sorted before it), so that increment sieves, PPV and CPV return 0 there; MAX and MIN raise for the whole dataset if a segment has no known value, and a float cut of a series with a NaN falls to 0. Proved: the exact features of all sieves after a fit with known quantiles, for every pattern of missing values; independence of other series; the exact quantiles after a fit with missing values and the zero features they cause; agreement with the model of Sieve.lean if nothing is missing. Not modelled: infinite entries, AVG and STD beyond their use of CUR (C170_other_series and C170_none_missing cover them)."
  },
  {
   "property": "C171",
   "status": "partial",
   "theorems": [
    "Fruits.C171_none_missing",
    "Fruits.C171_sound_partial",
    "Fruits.C171_fit_known",
    "Fruits.C171_other_series",
    "Fruits.C171_inc",
    "Fruits.C171_mav",
    "Fruits.C171_std",
    "Fruits.C171_nrm",
    "Fruits.C171_win",
    "Fruits.C171_std_fit_counterexample",
    "Fruits.C171_qtc_fit_counterexample",
    "Fruits.C171_win_counterexample",
    "Fruits.C171_counterexample",
    "Fruits.C171_counterexample_fit"
   ],
   "note": "False through WIN, which returns zeros for a series with a gap in its first dimension, and through the fits of STD(separately=False) and QTC, which one missing value of any series spoils for all (proved in general and with concrete witnesses). Proved: soundness for all settings and states without missing values and without WIN (with WIN if the first dimensions have no gaps), locality including WIN, agreement with the model without NaN (transform and fit), the exact NaN pattern of INC, MAV, STD(separately=True) and NRM(). Not modelled: FFN, RIN, RDW, JLD, SPE, RPE, FUN."
  },
  {
   "property": "C172",
   "status": "proved",
   "theorems": [
    "Fruits.C172_other_series",
    "Fruits.C172_features",
    "Fruits.C172_none_missing",
    "Fruits.C172_raises"
   ],
   "note": "C172_features says what the features are (missing ones become 0), C172_none_missing that without missing values they are those of the models of C01ff. For fitted states (fitting to data with missing values is C170 and C171). C172_raises shows that a series with missing values can make the whole call raise, which the property excludes. Simplified: one ISS per slice with simple words and weights that depend on the time only."
  }
 ]
}