m("C01", "proved", ["C01_reals_iss"])
m("C02", "proved", ["C02_arctic_iss"])
m("C03", "proved", ["C03_bayesian_iss"])
m("C04", "proved", ["C04_weighted_reals"])
m("C05", "proved", ["C05_weighted_arctic"])
m("C06", "proved", ["C06_weighted_bayesian"])
m("C07", "proved", ["C07_rows_are_prefixes"])
m("C08", "proved", ["C08_plain_eq_total"])
m("C09", "partial", ["C09_dim_words_partial", "C09_bayesian_counterexample"], "False for the Bayesian semiring with two or more extended letters (proved counterexample): the Word path is strict, the SimpleWord path is not. Proved for Reals and Arctic, and Bayesian words with one extended letter, SINGLE mode.")
m("C10", "proved", ["C10_causal", "dim_causal", "abs_causal"],
  "General words: the letters must be causal themselves (DIM and ABS are). Arctic(argmax=True) has another output format and is treated in the argmax properties.")
m("C11", "proved", ["C11_quasi_shuffle"])
m("C13", "proved", ["C13_homogeneous_reals", "C13_homogeneous_arctic"])
m("C14", "proved", ["C14_monotone_arctic", "C14_monotone_bayesian", "C14_monotone_reals"])
m("C16", "proved", ["C16_batches", "C16_too_large", "C16_zero_never_ends", "C16_argmax_single"])
m("C17", "proved", ["C17_count"])
m("C18", "proved", ["C18_labels_are_prefixes","C18_word_index","C18_unique_depth"])
m("C19", "proved", ["C19_extended_eq_single"])
m("C20", "proved", ["C20_label_names_row_single", "C20_label_names_row_extended", "C18_labels_are_prefixes"])
m("C21", "partial", ["C21_weighted_extended_partial", "C21_counterexample"], "False in general (proved counterexample): CachePlan identifies words by their string, so a second word with the same string and another alpha is dropped. Proved when equal beginnings carry equal alphas.")
m("C22", "proved", ["C22_series_independent"])
m("C94", "proved", ["C94_general_reals", "C94_general_arctic", "C94_general_bayesian"])
m("C23", "proved", ["C23_accepts", "C23_content"])
m("C24", "proved", ["C24_permuting", "C24_equality"])
m("C25", "proved", ["C25_multiply", "C25_associative", "C25_zero_letter_counterexample"], "For words whose letters are non-zero (a letter 0 is proved to break the homomorphism).")
m("C26", "proved", ["C26_of_weight", "C26_weight_zero"])
m("C27", "proved", ["C27_count"])
m("C28", "partial", ["C28_alternate_sign_partial", "C28_counterexample"], "False for words with a letter >= 10 (proved counterexample: the sign is inserted per digit). Proved for letters 1..9.")
m("C29", "proved", ["C29_roundtrip"])
m("C30", "proved", ["C30_registry"])
m("C31", "partial", ["C31_word_copy_partial", "C31_alpha_counterexample", "C31_simple_copy_partial", "C31_simple_independent", "C31_simple_alpha_counterexample"], "False for a word with an assigned alpha: copy() loses it (proved counterexamples). Everything else of the copy is proved equal and independent.")
m("C32", "partial", ["C32_alpha_length_partial", "C32_counterexample"], "False after multiply() following an alpha assignment (proved counterexample). Proved as an iff over all histories.")
m("C33", "partial", ["C33_iteration_partial", "C33_nested_counterexample"], "False for nested loops over one object (proved counterexample: the cursor is stored on the object). Proved for loops whose body does not iterate over the same object, after any abandoned loop.")
m("C34", "proved", ["C34_replace_letters", "C34_negative_exponents"])
m("C35", "proved", ["C35_history", "C35_coquantile", "C35_iss", "C35_coquantile_two","C35_iss_two","C35_iss_one","C35_given","C35_unknown_key"])
m("C36", "proved", ["C36_first_request_wins"])
m("C37", "proved", ["C37_cut_points", "C37_monotone"])
m("C38", "partial", ["C38_no_cache_left_partial", "C38_counterexample"], "False when the call raises (proved counterexample: no try/finally, the temporary cache stays). Proved for calls that succeed.")
m("C39", "proved", ["C39_increments", "C39_float_and_callable", "C39_float_needs_padding"])
m("C40", "proved", ["C40_cumsum", "C40_inverse"])
m("C41", "proved", ["C41_mean_zero", "C41_variance_one", "C41_fitted"])
m("C42", "proved", ["C42_normalises", "C42_affine_invariant"])
m("C43", "partial", ["C43_moving_average_partial", "C43_minus_one"], "False for width -1 (proved: transform always raises). Proved for integer widths >= 1 and floats.")
m("C44", "proved", ["C44_lead_lag"])
m("C45", "proved", ["C45_time_shift"])
m("C46", "proved", ["C46_quantile_cut", "C46_idempotent_monotone"])
m("C49", "proved", ["C49_dotting"])
m("C47","proved",["C47_dilation","C47_count","C47_fit_succeeds"],"For every valid random source.")
m("C48","proved",["C48_window","C48_cover"],"")
m("C50","partial",["C50_drop_partial","C50_counterexample","C50_default_identity"],"The closed form holds; the default settings do not drop the stated share of time points, shown by the counterexample.")
m("C51","proved",["C51_new","C51_new_none","C51_dim"],"")
m("C52","partial",["C52_window_partial","C52_const_kernel","C52_counterexample"],"The code reads dimension j instead of dims[j] for the current value; the theorem describes the code and agrees with the documentation when the permutation is the identity.")
m("C53","partial",["C53_kernel_partial","C53_counterexample","C53_default_kernel_zero"],"force_sum_one leaves [-1,1]; default kernel is zero.")
m("C54","partial",["C54_jld_partial","C54_rin_partial","C54_counterexample"],"RIN mixes a wrong dimension.")
m("C55","proved",["C55_linear"],"")
m("C56","proved",["C56_network","C56_offset"],"For every random source.")
m("C57","proved",["C57_rotation","C57_wrong_dims"],"sin and cos are parameters with sin^2+cos^2=1.")
m("C58","proved",["C58_independent","C58_independent_alone","C58_other_series_irrelevant"],"User functions in FUN have to treat series independently themselves.")
m("C59","proved",["C59_partition"])
m("C60","partial",["C60_columns_partial","C60_counterexample"],"False for END with more than two quantile values (proved counterexample); proved for every other fitted sieve.")
m("C61","proved",["C61","C61_max_bands","C61_min_bands"])
m("C62","proved",["C62"])
m("C63","partial",["C63_cur_partial","C63_avg_std_are_cur","C63_counterexample"],"False for AVG and STD: both run the CUR code (proved). CUR is proved.")
m("C64","proved",["C64_counts","C64_bins","C64_default"])
m("C65","proved",["C65"])
m("C66","proved",["C66_mpi","C66_xpi","C66_product"])
m("C67","proved",["C67_values","C67_segments","C67_fit"])
m("C68","partial",["C68_strips_partial","C68_segments_partial","C68_counterexample"],"False for a strip that starts at the first value (proved counterexample); proved for all other strips.")
m("C69","partial",["C69_int","C69_inc_partial","C69_inc_labels","C69_inc_depth","C69_counterexample"],"False for INC with depth other than 1: the depth is ignored (proved). INT and INC of depth 1 are proved.")
m("C70","partial",["C70_label_partial","C70_counterexample"],"False for unsorted cuts or quantiles (proved counterexample); proved when both are increasing.")
m("C72","proved",["C72_independent","C72_independent_alone"])
m("C71","partial",["C71_prep_partial","C71_prep_copy_idempotent","C71_std_counterexample","C71_iss","C71_coswiss","C71_sieve_partial","C71_ppv_copySafe","C71_norm_counterexample","C71_ppv_raises","C71_flags_counterexample"],"False for STD with std_eps, segment sieves with coquantile_norm, some PPV/CPV (proved counterexamples); proved for all other built-in seeds.")
m("C91","proved",["C91_ramp","C91_weights"],"")
m("C92","partial",["C92_relative_partial","C92_absolute","C92_differs"],"False for relative=False: NRM truncates the integer ramp (proved closed form and proved difference). Proved for relative=True.")
m("C93","proved",["C93_constructor","C93_plateaus","C93_reverse","C93_values","C93_blocks"],"")
m("C88","partial",["C88_coswiss_partial","C88_network_partial","C88_counterexample","C88_every_exponent","C88_false_from_five"],"False for every exponent from 5 on (C88_false_from_five, over the reals: only the first digits of the binomial coefficients and exponents are used; C88_every_exponent gives the sum that is really computed for every exponent). Proved for exponents up to 4 (default 2), all words, frequencies, lengths, with and without total weighting and the random network.")
m("C89","proved",["C89_batches","C89_label","C89_label_range"],"")
m("C90","proved",["C90_masked","C90_dropout"],"C90_masked holds for every exponent; C90_dropout gives the sum over the remaining tuples for exponents up to 4 (limit of C88).")
m("C73","proved",["C73_layout","builtin_keepsRows","builtin_countsRight","builtin_keepsN"],"For every history of calls; the hypotheses on seeds are proved for the library's seeds (user functions in FUN keep the number of series). Sieves with a negative number of features are excluded (np.zeros raises).")
m("C74","proved",["C74_chain","builtin_countsRight"],"")
m("C76","proved",["C76_transform_needs_fit","C76_slice_transform_needs_fit"],"Assignments to fit_sample_size do not count as configuration changes.")
m("C79","partial",["C79_slice_deepcopy_partial","C79_fruit_deepcopy_partial","Demo.C79_shared_words"],"False for in-place changes of the words: the copied ISS objects share the list of words (proved counterexample). Proved for all histories that do not change words of the other object in place.")
m("C80","partial",["C80_slice_copy_partial","C80_fruit_copy_partial","C80_copy_drops_sample"],"False for fit_sample_size, which copy() resets (proved); all other settings are kept.")
m("C81","proved",["C81_clear_resets","C81_new_slice"],"")
m("C82","partial",["C82_callbacks_partial","Demo.C82_on_sieve_rows"],"The order and the arguments of all calls are proved except the argument of on_sieve, which is a slice of rows instead of columns (proved counterexample).")
m("C87","proved",["C87_current_slice_valid","C87_cut","C87_copycut","C87_switch","C87_add","C87_get_slice"],"")
m("C75","proved",["C75_label","C75_label_of_column","C75_iterated_label"],"Slices need at least one ISS (implied by a successful transform; without one the label string is mangled).")
m("C83","proved",["C83_finite","C83_unchanged"],"Floating point values are modelled as numbers, two infinities and NaN.")
m("C84","proved",["C84_sample","C84_fit_uses_sample","C84_other_integers"],"Any random generator that returns distinct indices in range. Integers other than 1 raise (proved).")
m("C77","proved",["C77_refit","C77_slice_refit","builtin_refits"],"For every history before and after; the random numbers of the two fits are the same. Edits of the settings or words of the fruit's own ISS objects in between are excluded (they change the configuration).")
m("C86","proved",["C86_slice_alone","C86_features"],"Random numbers are those drawn for the slice.")
m("C78","partial",["C78_partial","C78_slice_partial","C78_first_fit_partial","Demo.C78_counterexample"],"False when an earlier fit had succeeded: transform then returns a mixture of old and new fits (proved counterexample). Proved: transform raises after a failed fit unless the failing slice and all later ones had been fitted before.")
m("C85","partial",["C85_partial","builtin_cacheFree","Demo.C85_counterexample"],"False: with WIN the window of another series is used (proved counterexample). Proved for all slices without WIN, SPE(step_transform) and raw L1/L2 weightings, where fit does not depend on the cache.")
m("C12","proved",["C12_time_warping","C12_pipeline","C12_iterated_sums","C12_end","C12_weighting"],"Also with raw L1/L2 weightings and with every warp-invariant sieve (C96). The shape of the data is read from the first series, so at least one series and dimension.")
m("C95","proved",["C95_iterated_sums","C95_pipeline","C12_weighting"],"Words of simple letters (general words: not covered).")
m("C96","proved",["C96_npi_mpi","C96_max_min","C12_end"],"")
m("C15","proved",["C15_argmax"],"EXTENDED mode (SINGLE raises, C16). The row layout is part of the statement.")
m("C97","proved",["C97_library","C97_series_alone","C97_other_series_irrelevant","C97_generic"],"transform of the whole dataset succeeds. C97_library has no condition on the seeds except that they are the library's own; C97_series_alone also covers user functions that treat series one by one.")

m("C98","partial",["C98_equal_behave_partial","C98_copies","C98_counterexample_eps","C98_counterexample_types"],"False for STD objects with different std_eps and for int/float settings of equal value (INC(1) == INC(1.0)), proved counterexamples; proved for all other pairs.")
m("C99","partial",["C99_reflexive_partial","C99_symmetric","C99_transitive","C99_raises","C99_counterexample"],"Reflexivity fails for FUN, FFN, DIL, DIM, NEW and RIN with a constant kernel, comparing WIN, DOT, PDD with another class raises (proved). Symmetry, transitivity and the exact conditions are proved.")
m("C100","partial",["C100_copy_equal_partial","C100_not_comparable"],"False exactly for the objects that are not equal to themselves (proved); proved for all others.")
m("C101","proved",["C101_letter","C101_letter_in_word","C101_misuse"],"Names with brackets can be registered but not used in a word string (example). letter(f, name=n) registers nothing.")
m("C102","proved",["C102_user_semiring","C102_simple_word","userMinPlus_means","userReals_means"],"Before time p-1 (no tuple) the value is the number 0 also if the semiring's zero is another one. Negative exponents of simple words are dropped on this path. Letters have to return arrays of the length of the series.")
m("C103","partial",["C103_text_partial","C103_behave_partial","C103_copy","C103_fit","C103_counterexample"],"False for STD: std_eps is not part of the text (proved counterexample). Proved for all other settings, assuming what the texts of floats and functions of the program look like (TextLaws, satisfiable). CTS shifts are numbers (an int shift is printed like a float).")
m("C104","partial",["C104_slice_partial","C104_sieve_partial","C104_counterexample"],"False for PPV and CPV with several quantiles, all of whose features have the text of the sieve as label (proved). Proved for slices whose words and sieves have different texts without the separators, and for segment sieves with different cuts and quantiles.")
m("C105","partial",["C105_slice_partial","C105_fruit_partial","C105_counterexample"],"False for slices without ISS (a line of 76 characters and an empty one, proved for all such slices). Proved for all others; texts with line breaks or longer than a line are excluded from the statement about widths only.")
m("C106","proved",["C106_fitted","C106_fruit"],"Words of simple letters; datasets with at least one series and dimension.")
m("C107","proved",["C107_extended_of_weight","C107_one_dimension"],"Weight at least one (of_weight(0) raises) and at least one dimension; the count is stated for all semirings except Arctic(argmax=True).")
m("C108","proved",["C108_total","C108_fruit_twi","C108_nfeatures"],"The script is modelled as a list of calls.")
m("C109","proved",["C109_total","C109_columns","C109_slice"],"SliceFor is the specification of the documented settings; C108_total and w8_for are instances. Division by zero in NRM/STD of constant data gives the field's 0 instead of NaN (floats are not modelled).")
m("C110","proved",["C110_looks","C110_fruit","C110_slice"],"C110_fruit and C110_slice hold for all seeds that satisfy ShownAlike; builtin_shownAlike proves it for the library.")
m("C111","proved",["C111_number_of_words","C111_two_dimensions","C111_two_dimensions_recurrence"],"")
m("C112","proved",["C112_general","C112_reduced"],"The scripts are modelled as lists of calls; exp_hypotheses shows that the constructor calls in the hypotheses succeed.")
m("C113","proved",["Par.run_mem","Par.C113_iterated_sums","Par.C113_coswiss","Par.C113_mav","Par.C113_rin","Par.C113_jld","Par.C113_rpe","Par.C113_sieves","Par.C113_coquantiles","Par.C113_norm_sums","Par.exists_finished"],"Every iteration is a thread; schedules interleave single reads and writes of the shared array (sequentially consistent memory).")
m("C114","partial",["C114_float_partial","C114_integer","C114_counterexample"],"False if the bound is an integer: JLD(f) on one dimension returns one dimension, the bound is 0.")
m("C115","proved",["C115_same_as_transform","C115_forgets","C115_total","C115_slice"],"")
m("C116","proved",["C116_fit","C116_fit_increments","C116_use","C116_invalid","C116_balance"],"CUR learns the quantiles of the series although its bands select second increments (as the code does).")
m("C117","partial",["C117_accepts","C117_rejects","C117_rejects_one","C117_fit_partial","C117_counterexample","C117_counterexample_segments"],"False for a single quantile outside of [0,1], which is accepted but can never be fitted, and for segments with mixed flags, which are paired with the wrong quantiles (both proved); also PPV(0.5, constant=[]) and an empty list of quantiles are accepted.")
m("C118","proved",["C118_lengthen"],"")
m("C119","proved",["C119_stuttering","stuttering_warp"],"At least one series, dimension and time step.")
m("C120","partial",["C120_lengthen","C120_stuttering_partial","StutterExample.C120_counterexample","lengthen_warp"],"False for implant_stuttering on series of several dimensions, which stutter independently (proved counterexample). Proved for lengthen, and for implant_stuttering in one dimension.")
m("C121","partial",["C121_kept_partial","C121_proportion_partial","C121_counterexample"],"False: every floor(1/r)-th value is kept, so r=1/4 removes three quarters and r=3/4 nothing (proved). Proved: exactly which values are kept.")
m("C122","partial",["C122_upsample_partial","C122_false_for_dimensions","C122_counterexample"],"True in one dimension; false for more, where the dimensions are mixed up (proved for all such data).")
m("C123","partial",["C123_last_observed","C123_value_partial","C123_counterexample"],"With a value given infinite values are replaced, too (proved counterexample); without a value the property is proved in full.")
m("C124","proved",["C124_multisine"],"Frequencies are numbers (the code also allows functions); noise is an arbitrary function of series and time.")
m("C125","partial",["C125_prepared_partial","C125_one_each_partial","C125_out_of_range","Demo.C125_false","Demo.C125_wrong_slice"],"False: the index counts the preparateurs of all slices, so label(1, 'prepared') may describe slice 0 or raise (proved). Proved: what is returned for every index, and the property for fruits with one preparateur in each slice.")
m("C126","proved",["C126_features","C126_iterated_sums","C126_prepared","featurePaths_columns","Demo.C126_no_iss"],"For a slice without ISS split_index raises a TypeError.")
m("C127","proved",["C127_saved"],"")
m("C128","partial",["C128_iterated_sums_partial","C128_prepared_partial","C128_default","C128_not_saved","C128_negative","Demo.C128_wrong_title","Demo.C128_raises"],"True for iterated sums; for prepared data the right data are drawn, but the title may describe another slice or raise (proved), see C125.")
m("C129","proved",["C129_features","sourceFeatures_spec"],"Without postprocessing; the label of every chosen column exists.")
m("C130","partial",["C130_classify_partial","Demo.C130_mixed_fits"],"False after a transform_all that raises: train and test features of different fits are mixed (proved). Proved if the last transform_all returned.")
m("C131","proved",["C131_labels"],"Labels are compared for equality only.")
m("C132","proved",["C132_records","C132_repeated"],"Records of other shapes are not always refused: one with a single dimension is silently repeated (proved).")
m("C133","partial",["C133_text_partial","C133_white_space","C133_not_a_number","C133_not_a_number_test","C133_single_series"],"False for a file with a single line: IndexError (proved for all such files). Proved for at least two lines. What float() accepts is a parameter.")
m("C134","partial",["C134_sequential_partial","C134_schedules_partial","C134_crash","C134_broken_forever","C134_race"],"Never wrong data (proved for all schedules and crash points), but a FileNotFoundError while another process saves, and forever after a crash between two saves (proved).")
m("C135","proved",["C135_load_all"],"")
m("C136","proved",["C136_once","C136_runs","C136_mean","C136_one_run"],"Random numbers are an arbitrary sequence; each run sees it from some position on. Classifiers are arbitrary functions of features and classes: a classifier that keeps state between calls of fit is not modelled. Timings are not modelled.")
m("C137","proved",["C137_choose","C137_single","C137_none"],"At least one split and one run. train_test_split is an arbitrary function of the number of the call.")
m("C138","partial",["C138_stratified_partial","C138_iff","C138_false"],"False for large sizes: the split exists if and only if validation_size <= 1 - classes/samples (proved); in particular for all sizes up to 1/2.")
m("C139","proved",["C139_table","C139_alone","C139_numbers"],"The state of the file between two writes; the writing itself is one step. Columns of timings are not modelled.")
m("C140","partial",["C140_fresh_partial","C140_name","C140_ending","C140_false"],"False for calls within one second: the file with the time in its name is overwritten (proved). Otherwise proved.")
m("C141","partial",["C141_equal","C141_reals_partial","C141_eq_partial","C141_arctic_false","C141_arctic_unequal","C141_cancel_false"],"Equal words have equal sums (proved for all semirings and weightings). Over the reals the sums are the same exactly when each dimension has the same exponent in each extended letter (proved), which is == for words with the same highest dimension (proved); false for [1] and [12-2], which are unequal with equal sums. False over the arctic semiring: [1][1] and [11] have the same sums on all data (proved).")
m("C142","partial",["C142_simple_partial","C142_multiply","C142_general_false","C142_mixed_false"],"True for simple words (proved). False for general words: a Word is not equal to itself; comparing a Word with a SimpleWord raises NotImplementedError (proved).")
m("C143","partial",["C143_mean","C143_plot_input","C143_plot_per_class","C143_per_class","C143_first","C143_legend_partial","C143_legend_false"],"The lines are proved. The legend is false unless the classes are 1, 2, ..., k: it numbers the classes, so class 0 of the classes 0 and 1 is called Class 1 (proved).")
m("C144","partial",["C144_groups","C144_targets","C144_stack_partial","C144_stack_false"],"Points and heights of the bars are proved (features that are numbers, nbins >= 2). The bars are stacked for the first two classes only: from the third class on they start at the heights of the previous class alone (proved for all data).")
m("C145","proved",["C145_scores","C145_errors","C145_new"],"A classifier is an arbitrary function of its setting and the features. Before transform_all: AttributeError (proved).")
m("C146","proved",["C146_chen_reals","C146_chen_arctic","C146_chen_bayesian"],"SINGLE mode without weighting; Bayesian for non-negative data (as C03).")
m("C147","proved",["C147_dimensions"],"SINGLE mode; all semirings except the argmax variant of Arctic.")
m("C148","partial",["C148_add_partial","C148_others_partial","C148_clear_partial","Demo.C148_false"],"The contents of the lists are proved. The getters return the lists of the slice themselves: changing such a list after a fit is not noticed, and e.g. an appended sieve gives columns of zeros (proved).")
m("C149","partial",["C149_inside_partial","C149_outside","Demo.C149_false"],"A second model of the kernels that checks every access is proved equal to the unchecked one, for all semirings (with argmax), weightings and modes, if no letter names a dimension beyond those of the data and alpha has one entry per extended letter. Without that the claim is false: nothing checks the dimensions (proved for every such word), and alpha set before multiply is too short (example).")
m("C150","partial",["C150_rin_partial","C150_jld_partial","C150_mav","C150_rpe","C150_rin_outside","C150_jld_outside","Demo.C150_false"],"As C149, with bounds-checked copies of the kernels. MAV and RPE: in full. RIN and JLD: for data with at least as many dimensions as the training data and, for RIN with a given kernel, as many kernel rows. Otherwise false: proved for all data with fewer dimensions than the training data.")
m("C151","partial",["C151_coswiss_partial","Demo.C151_false"],"As C149, for batch_transform: data with the dimensions of the training data, letters within them and, with dropout, series at least as long as the training series. Otherwise false: a longer training series makes the kernel write outside its array (example).")
m("C152","proved",["C152_sieves","C152_cache","Demo.C152_empty"],"As C149. On series without time steps _coquantile reads outside its array (example).")
m("C153","proved",["C153_exact","C153_exact_iss","C153_reals","C153_reals_relative","C153_arctic","C153_bayesian","C153_reals_weighted","C153_arctic_weighted","C153_bayesian_weighted","C153_factor"],"A second, rounded model of the six fast kernels (Verif/Rounded.lean) over an arbitrary format; Verif/RoundedBinary.lean shows that round-to-nearest with p+1 significant bits is one. No overflow, underflow, NaN, no fastmath re-association, no argmax. With a weighting the exponential is the machine's. SINGLE mode for users; kernels in all modes.")
m("C154","proved",["C154_prefix","C154_causal","C154_kernel_prefix","C154_kernel_causal","C154_monotone_arctic","C154_monotone_bayesian","C154_monotone_reals"],"The rounded model of C153.")
m("C155","proved",["C155_exact","C155_sums","C155_coquantiles"],"The rounded model of C153, extended by Verif/RoundedSeeds.lean.")
m("C156","proved",["C156_reals","C156_max","C156_cache"],"The rounded model. Reals: letters with at least one positive and no negative exponent (as in exact arithmetic). A weighting must give lookups that are warped like the data.")
m("C157","proved",["C157_counts","C157_default","C157_proportions","C157_ppv"],"The rounded model. Float cuts depend on rounded coquantiles (C155) and may differ from the exact ones; with the cut positions fixed the counts are exact.")
m("C158","proved",["C158"],"The rounded model; max - min must not overflow.")
m("C159","proved",["C159_arctic","C159_reals","C159_arctic_features","C159_reals_features","C159_dim_abs","C159_bayesian_false"],"The Bayesian half is the proved counterexample C159_bayesian_false. Letters that look at other time points (e.g. a moving average) are excluded by the hypothesis.")
m("C160","proved",["Expr.C160_source","Expr.C160_source_iss","Expr.C160_reals","Expr.C160_reals_relative","Expr.C160_arctic","Expr.C160_bayesian","Expr.C160_reals_weighted","Expr.C160_arctic_weighted","Expr.C160_bayesian_weighted","Expr.C160_integers_reals","Expr.C160_integers_arctic","Expr.C160_integers_bayesian","Expr.C160_reproducible","Fp.binary_integers"],"Symbolic execution of the kernels (Verif/FastMath.lean); the compiler's freedom is the relation Fast: Rw (rewrites) and Ev (each operation rounded or fused). Not among the rewrites: dividing by a product, distributing a product over a sum; values of exp are constants. C160_source shows that the source order is one of the possible compilations.")
m("C161","proved",["C161_logarithm"],"exp is any function with exp(x+y) = exp(x)exp(y), positive values and monotone; simple words. SameWeights: no weighting, or one with the same lookup for both datasets.")
m("C162","proved",["C162_arctic_stable","C162_arctic_monotone","C162_monotone","C162_reals_stable","C162_segments_stable","C162_pipeline"],"Simple words. Reals stability in SINGLE mode without weighting and with non-negative exponents; the other parts in both modes with weightings that give the same numbers for both datasets.")
m("C163","proved",["C163_reversal"],"SINGLE mode, no weighting; negative exponents only where the data are not zero.")
m("C164","partial",["C164_integers_partial","C164_sequences_partial","C164_floats","C164_no_type_error_partial","C164_compiled_raises","C164_iss","C164_nrm_truncates","C164_new_truncates","C164_counterexample"],"False for NRM and NEW, which truncate silently (proved for all data). Proved for all other preparateurs, NEW around preparateurs that keep integers, sequences and iterated sums. Only int64 and float64, no integer overflow; FUN is taken to return floats.")
m("C165","proved",["C165_memory","C165_sequences","C165_unchanged","C165_twice","C165_separate"],"Memory of array objects (Memory.lean). A function given to FUN or SPE is assumed not to write to arrays and to return a new one. INC with depth 0, which its constructor refuses, is the only model value that returns its input.")
m("C166","proved",["C166_fruit","C166_prep_keeps","C166_prep_removes","C166_prep_fit","C166_sieve_fit","C166_sieve_transform","C166_std_eps"],"Conditions as in the statement, as predicates on the seeds (KeepsUnit, RemovesUnit, UnitFree, UnitCache); an object must not be used both before and after the unit is removed, because it learns twice. Not covered: L1/L2 weightings of the raw data with relative=True or a transform, and SPE(step_transform). Counterexample for the default of STD proved.")
m("C167","partial",["C167_fit_partial","C167_fit_transform_partial","C167_total_partial","C167_generic","C167_prep_fit","C167_sieve_fit","Demo.Order.C167_counterexample"],"False for seeds that read the cached data of a series (WIN, SPE with step_transform, L1/L2 weightings of the raw data): the sample of all the series is a random permutation of them, but the cache is in the original order (the defect of C85). Proved for all other seeds; C167_total_partial shows that both fits succeed for fruits configured for the data.")
m("C168","proved",["C168_fruit","C168_fruit_series","C168_removes","C168_keeps","C168_removes_series","C168_keeps_series","C168_fit","C168_mav_counterexample"],"Conditions as in the statement, as predicates on the preparateurs (RemovesOffset, KeepsOffset). RIN and JLD, which remove or keep levels for suitable kernels, are not in the classes.")
m("C169","partial",["C169_none_missing","C169_elsewhere_partial","C169_reals","C169_arctic","C169_bayesian","C169_generic","C169_generic_arctic","C169_arctic_counterexample","C169_reals_counterexample","C169_paths_counterexample"],"False: Arctic adds 0*NaN for dimensions the word does not name (up to the highest one it names), and the compiled Reals kernel multiplies letter k also with the first k values, which no index tuple uses; words with arbitrary letters return NaN where the compiled Arctic and Bayesian kernels skip. Proved: exactly when each kernel returns NaN, the number otherwise, and independence of everything else. The compiled kernels are run on numbers with NaN in source order; fastmath formally lets a compiler ignore NaN. Infinities and Arctic(argmax=True) are not covered.")
m("C170","partial",["C170_none_missing", "C170_max", "C170_min", "C170_cur", "C170_npi", "C170_mpi", "C170_xpi", "C170_lpi", "C170_end", "C170_ppv", "C170_other_series", "C170_fit_partial", "C170_nan_quantile_partial", "C170_ppv_nan_quantile_partial", "C170_fit_counterexample", "C170_ppv_counterexample", "C170_max_counterexample", "C170_cut_counterexample"],"False through fit: one NaN in the training data makes every quantile that needs data NaN for all series (the others are sorted before it), so that increment sieves, PPV and CPV return 0 there; MAX and MIN raise for the whole dataset if a segment has no known value, and a float cut of a series with a NaN falls to 0. Proved: the exact features of all sieves after a fit with known quantiles, for every pattern of missing values; independence of other series; the exact quantiles after a fit with missing values and the zero features they cause; agreement with the model of Sieve.lean if nothing is missing. Not modelled: infinite entries, AVG and STD beyond their use of CUR (C170_other_series and C170_none_missing cover them).")
m("C171","partial",["C171_none_missing","C171_sound_partial","C171_fit_known","C171_other_series","C171_inc","C171_mav", "C171_std", "C171_nrm","C171_win","C171_std_fit_counterexample","C171_qtc_fit_counterexample","C171_win_counterexample","C171_counterexample","C171_counterexample_fit"],"False through WIN, which returns zeros for a series with a gap in its first dimension, and through the fits of STD(separately=False) and QTC, which one missing value of any series spoils for all (proved in general and with concrete witnesses). Proved: soundness for all settings and states without missing values and without WIN (with WIN if the first dimensions have no gaps), locality including WIN, agreement with the model without NaN (transform and fit), the exact NaN pattern of INC, MAV, STD(separately=True) and NRM(). Not modelled: FFN, RIN, RDW, JLD, SPE, RPE, FUN.")
m("C172","proved",["C172_other_series","C172_features","C172_none_missing","C172_raises"],"C172_features says what the features are (missing ones become 0), C172_none_missing that without missing values they are those of the models of C01ff. For fitted states (fitting to data with missing values is C170 and C171). C172_raises shows that a series with missing values can make the whole call raise, which the property excludes. Simplified: one ISS per slice with simple words and weights that depend on the time only.")
