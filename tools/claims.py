P = "Verif.Pool."
claim("C01", "proved", [P + "C01_each_document_once", P + "C01_result_of_same_document"],
      "All schedules, corpus sizes and worker counts. For the online M step the result is that of an earlier model state of the same call.")
claim("C02", "proved", [P + "C02_transform_columns"])
claim("C03", "proved", [P + "C03_no_deadlock", P + "C03_no_lost_wakeup"])
claim("C04", "proved", [P + "C04_bounded", P + "C04_no_infinite", P + "C04_maximal_returned"])
claim("C05", "partial", [P + "C05_returns_partial", P + "C05_zero_workers_never_return", P + "C05_zero_workers_stuck"],
      "False with zero workers and a nonempty corpus (negation proved); proved otherwise.")
claim("C06", "proved", [P + "C06_nothing_left", P + "C06_calls_independent"])
claim("C07", "partial", [P + "C07_event_order_partial", P + "C07_event_before_consume", P + "C07_foreign_thread_no_epoch_event"],
      "Proved when the calling thread built the LDA object; false for another calling thread (witness proved).")
claim("C10", "proved", [P + "C10_fit_is_iterated_epoch", P + "C10_epochs"],
      "The number of epochs, steps and events for every M step, online ones included; the resulting model for batch M steps whose per-document updates commute.")
V = "Verif.Events."
claim("C11", "proved", [V + "C11_process_notifies", V + "C11_no_event_lost", V + "C11_concurrent"])
claim("C12", "proved", [V + "C12_removed_not_notified", V + "C12_others_unaffected"])
claim("C13", "partial", [V + "C13_added_is_notified_partial", V + "C13_readded_listener_lost"],
      "False when the listener was removed since the last process_events (witness proved).")
claim("C14", "partial", [V + "C14_ub_iff_partial", V + "C14_remove_first_listener_ub", V + "C14_circular_completes"],
      "Undefined behaviour exactly when the first registered listener was removed; harmless on circular list implementations.")
claim("C15", "proved", [V + "C15_dispatch_in_order", V + "C15_remove_earliest", V + "C15_remove_unknown", V + "C15_history"])
claim("C16", "proved", [V + "C16_own_thread_synchronous", V + "C16_other_thread_queues", V + "C16_refines"])
claim("C70", "partial", [V + "C70_simple_no_ub_partial", V + "C70_simple_each_once", V + "C70_self_removal_ub", V + "C70_threadsafe_unaffected"],
      "False for EventDispatcher when a listener removes itself (witness proved); holds otherwise and for the thread-safe dispatchers.")
claim("C71", "partial", [P + "C71_no_write_during_e_step_partial", P + "C71_online_race"],
      "Proved for M steps whose doc_m_step leaves the model alone; false for the online M step.")
Cp = "Verif.Corpus."
claim("C17", "proved", [Cp + "C17_shuffle_keeps_labels"],
      "std::shuffle is modelled as the Fisher-Yates loop with arbitrary random draws; y has at least as many entries as X has columns.")
claim("C18", "proved", [Cp + "C18_priors", Cp + "C18_undefined"], "Exact arithmetic instead of floats.")
N = "Verif.Numpy."
claim("C19", "proved", [N + "C19_save_load"])
claim("C20", "proved", [N + "C20_sequences", N + "C20_data_file"])
claim("C21", "proved", [N + "C21_valid_npy"])
claim("C22", "proved", [N + "C22_version", N + "C22_version_high", N + "C22_empty", N + "C22_type"],
      "Version bytes from 128 on are rejected only where char is unsigned; where it is signed they are read as version 1 (C22_version_high). The element type check for files whose header length is read correctly (little-endian hosts).")
claim("C23", "proved", [N + "C23_numpy_files"], "Little-endian hosts.")
claim("C24", "partial", [N + "C24_byte_order_partial", N + "C24_foreign_bytes_reversed", N + "C24_byte_order_ignored"],
      "False: swap_endianess never stores the swapped bytes. The values survive exactly when every entry is a byte palindrome.")
claim("C25", "partial", [N + "C25_short_files_rejected_partial", N + "C25_truncated_accepted", N + "C25_silent_corruption", N + "C25_header_cut"],
      "False for every cut inside the data (the rest is read as zero); proved for streams shorter than 24 bytes. For each cut inside the header of a saved matrix the outcome is proved: an exception, undefined behaviour, a column of zeros or a matrix of zeros, depending on the place.")
claim("C26", "proved", [N + "C26_model_round_trip"])
claim("C73", "partial", [N + "C73_big_endian_host_loses", N + "C73_zero_partial"],
      "False: exactly the matrices whose bytes are all zero survive; the negation is proved for every other matrix.")
claim("C74", "partial", [N + "C74_magic_ignored", N + "C74_wrong_magic_accepted", N + "C74_version_partial"],
      "False: the magic string is never compared; the first six bytes have no influence at all. Only the version byte is looked at.")
M = "Verif.MathUtils."
claim("C27", "proved", [M + "C27_normalize_rows", M + "C27_normalize_cols", M + "C27_idempotent", M + "C27_nonneg"])
claim("C28", "proved", [M + "C28_sums", M + "C28_zero_weight_ignored", M + "C28_finite", M + "C28_value", M + "C28_product", M + "C28_special", M + "C28_special_rows"],
      "Special values of IEEE 754 are modelled; overflow of finite numbers and signed zeros are not.")
claim("C33", "proved", [M + "C33_matrix_to_vector", M + "C33_vector_to_matrix", M + "C33_round_trip", M + "C33_too_short"])
claim("C34", "proved", [M + "C34_product_of_nonzeros", M + "C34_divide"])
F = "Verif.FastExp."
claim("C29", "proved", [F + "C29_total", F + "C29_table_size", F + "C29_halvings", F + "C29_no_overflow"],
      "Real arithmetic; halving and multiplying by 1024 are exact in binary floating point.")
claim("C30", "proved", [F + "C30_table", F + "C30_accuracy", F + "C30_outside", F + "C30_reciprocal"],
      "Real arithmetic; with rounding see C132.")
claim("C31", "partial", [F + "C31_monotone_partial", F + "C31_not_monotone"],
      "False across |x| = 100 (witness proved); monotone on [-100, 100] and outside it.")
claim("C32", "proved", [F + "C32_recurrence", F + "C32_large", F + "C32_defined", F + "C32_positive"])

E = "Verif.EStep."
claim("C35", "proved", [E + x for x in ["C35_unsupervised", "C35_fast", "C35_fast_empty", "C35_multinomial", "C35_correspondence", "C35_correspondence_tau", "C35_supervised", "C35_unsupervised_defined", "C35_fast_defined", "C35_multinomial_defined", "C35_correspondence_defined"]],
      "Real arithmetic, with fast_exp and digamma as they are (fastPrims) or any others satisfying Prims.")
claim("C36", "proved", [E + x for x in ["C36_unsupervised", "C36_fast", "C36_supervised", "C36_multinomial", "C36_correspondence"]])
claim("C37", "proved", [E + x for x in ["C37_unsupervised", "C37_fast", "C37_supervised", "C37_multinomial", "C37_correspondence"]])
claim("C38", "partial", [E + x for x in ["C38_unsupervised", "C38_fast", "C38_supervised", "C38_correspondence", "C38_multinomial_partial", "C38_multinomial_tolerance_ignored"]],
      "False for the multinomial step, which compares with compute_likelihood instead of the tolerance; proved for the other four.")
claim("C39", "partial", [E + x for x in ["C39_unsupervised", "C39_fast", "C39_multinomial", "C39_supervised", "C39_correspondence_depends", "fastPrims_distinguishes"]],
      "False for the correspondence step (witness proved); proved for the other four.")
claim("C40", "partial", [E + x for x in ["C40_unsupervised", "C40_fast_partial", "C40_likelihood_undefined"]],
      "Proved for the unsupervised step; the fast step reads column -1 of phi when the likelihood is reported (always, by default).")
claim("C41", "partial", [E + x for x in ["C41_reporting_partial", "C41_multinomial_depends"]],
      "False for the multinomial step (witness proved); proved for the other four.")
claim("C42", "proved", [E + x for x in ["C42_compute_h", "C42_compute_h_defined", "C42_sweep", "C38_supervised"]])
claim("C43", "proved", [E + x for x in ["C43_update", "C43_eta_zero", "C38_fast"]])
claim("C44", "proved", [E + "C44_weight"])
S = "Verif.SemiStep."
claim("C45", "proved", [S + x for x in ["C45_documents", "C45_epochs", "C45_destroyed", "C45_same_object_twice", "C45_library"]],
      "For two different children; with one object as both every event arrives twice (proved).")
claim("C68", "partial", [E + x for x in ["C68_reported_elbo_partial", "C68_gap", "C68_guard", "C68_repeated_word"]],
      "False when a word occurs more than once: two terms count it once (exact difference and witness proved).")
claim("C69", "proved", [E + "C69_phi_maximises"], "Competitors must vanish where beta does; elsewhere the bound is minus infinity.")
claim("C75", "partial", [E + x for x in ["C75_supervised_partial", "C75_uninitialised", "C40_likelihood_undefined"]],
      "False when the loop stops before the first sweep, and for empty documents (proved).")
claim("C76", "proved", [E + x for x in ["C76_fast", "C76_supervised", "C76_fast_value"]])

O = "Verif.Optim."
claim("C54", "proved", [O + "C54_largest_step", O + "C54_returns"], "Real arithmetic.")
claim("C55", "proved", [O + "C55_terminates", O + "C56_logistic_terminates", O + "C56_second_terminates"], "Real arithmetic.")
claim("C56", "proved", [O + "C56_never_increases", O + "C56_m_step", O + "C56_events", O + "C56_terminates"])
claim("C57", "proved", [O + "C57_value", O + "C57_gradient", O + "C57_nonneg", O + "C57_undefined"],
      "Labels must be columns of eta; otherwise undefined behaviour (proved).")
claim("C58", "proved", [O + "C58_value", O + "C58_gradient", O + "C58_nonneg", O + "C58_needs_psd"])
claim("C59", "proved", [O + "C59_weights", O + "C59_balanced", O + "C59_total", O + "C59_absent_unused", O + "C59_undefined"],
      "The three copies of the code are one definition.")
claim("C77", "partial", [O + "C77_constant", O + "C77_armijo_partial", O + "C77_armijo_not_descent"],
      "False for the Armijo search along a direction that is not one of descent (witness proved).")
claim("C78", "partial", [O + "C78_callback_partial", O + "C78_first_norm", O + "C78_stale_norm"],
      "The norm is of uninitialised memory in the first call and one step old afterwards (proved); value and count are right.")
claim("C79", "proved", [O + "C79_minimum", O + "C79_convex", O + "C57_gradient"])

T = "Verif.MStep."
claim("C46", "proved", [T + x for x in ["C46_topics", "C46_fast", "C46_second"]], "Also for the two supervised batch steps.")
claim("C47", "partial", [T + x for x in ["C47_fast", "C47_second", "C47_unsupervised_partial", "C47_no_documents", "C47_multinomial_partial", "C47_multinomial_no_documents"]],
      "False for an epoch without documents after one with: the unsupervised and multinomial steps then use the buffers as they were left (proved).")
claim("C48", "partial", [T + x for x in ["C48_valid_partial", "C48_no_documents", "C48_topic_without_words"]],
      "False for a topic that receives no words and for an epoch without documents (proved).")
claim("C49", "proved", [T + x for x in ["C49_beta", "C49_eta", "C49_event", "C49_multinomial", "C49_correspondence"]])
claim("C50", "proved", [T + x for x in ["C50_fast", "C50_fast_trains", "C50_second", "C50_second_trains"]])
claim("C51", "proved", [T + x for x in ["C51_eta", "C51_beta", "C51_no_labels", "C51_defined"]])
claim("C52", "proved", [T + x for x in ["C52_count", "C52_m_step_no_op", "C52_between", "C52_update_eta", "C52_beta_stochastic", "C52_finite", "C52_defined", "C52_zero"]])
claim("C53", "partial", [T + x for x in ["C53_first_minibatch_partial", "C53_all_documents", "C53_not_only_minibatch", "C53_weights_ignored", "C53_weights_wrong"]],
      "True of the first minibatch only; later ones include all earlier documents, and the class weights are not used (witnesses proved).")
claim("C80", "partial", [T + x for x in ["C80_defined_partial", "C80_overflow"]], "False beyond 46340 words: signed overflow (proved).")
claim("C81", "partial", [T + x for x in ["C81_fast_partial", "C81_empty_document", "C81_empty_defined", "C81_online"]],
      "True of FastSupervisedMStep; false of SupervisedMStep and of the online step (proved).")
TR = "Verif.Train."
claim("C08", "proved", [P + "C08_schedule_independent", TR + "C08_partial_fit", TR + "C08_fit",
      TR + "C08_unsupervised", TR + "C08_fast_supervised", TR + "C08_semi_supervised", TR + "C08_supervised",
      TR + "C08_multinomial", TR + "C08_correspondence"],
      "For any E step, corpus, shuffle and earlier history of the M step; exact arithmetic. Definedness is schedule independent too.")
claim("C09", "partial", [P + "C09_one_at_a_time_partial", P + "C09_one_worker_order",
      TR + "C09_one_worker_depends", TR + "C09_order_depends"],
      "False: with one worker the topics depend on whether the next E step starts before or after the minibatch update, with two also on the order of arrival (witnesses proved). True for schedules that evaluate one document at a time.")
DE = "Verif.Decision."
claim("C60", "proved", [DE + x for x in ["C60_scores", "C60_predict", "C60_all_scores", "C60_in_range", "C60_no_classes", "C60_nonempty",
      "C60_transform_predict", "C60_same_predictions"]],
      "For documents whose gamma - alpha does not sum to zero; C60_nonempty shows that the E steps give such gammas for documents with words.")
claim("C61", "partial", [DE + x for x in ["C61_finite_iff_partial", "C61_empty", "C61_empty_document"]],
      "False: the scores of a document without words are NaN for every model (proved); finite otherwise.")
BU = "Verif.Build."
claim("C62", "partial", [BU + x for x in ["C62_build_partial", "C62_never_partial", "C62_defined", "C62_eta_before_topics",
      "C62_set_e", "C62_set_m"]],
      "Exact characterisation for every history; false for supervised steps chosen with set_e/set_m, which are accepted without eta (proved).")
claim("C63", "proved", [BU + x for x in ["C63_seeded", "C63_seeded_defined", "C63_random", "C63_alpha"]],
      "Word counts are natural numbers; the choices and draws of the generator are arbitrary.")
claim("C64", "partial", [BU + x for x in ["C64_independent_partial", "C64_params_partial", "C64_model_copied", "C64_copied_values", "C64_same_builder",
      "C64_builder_reused", "C64_events", "C64_train_other"]],
      "False: LDAs built from one builder share parameters, steps and event routing (proved for all histories and with a concrete witness). True for different builders and for models passed to initialize_*_from_model.")
claim("C82", "partial", [BU + x for x in ["C82_fits_partial", "C82_reinitialised"]],
      "False: topics initialised again after eta are accepted with an eta of the old size (proved).")

A = "Verif.Apps."
claim("C65", "proved", [A + "C65_snapshots", A + "C65_file", A + "C65_names", A + "C65_zero"],
      "The files after any history of events, the contents of each and the names, given as a separate specification (decimal value, at least three digits, no superfluous zeros). The counter is an int; more than 2^31-1 epochs are excluded.")
claim("C66", "partial", [A + "C66_close_partial", A + "C66_independent", A + "C66_integers", A + "C66_defined",
      A + "C66_wrong", A + "C66_silent", A + "C66_overflow"],
      "False: the sum is an int, so each document is truncated and so is the quotient. Proved: the printed number is at least the mean and less than the mean plus two, epochs are independent, whole numbers are exact up to rounding, and when everything is defined. Proved false: -1.5 is printed as -1, documents above -1 print nothing, a large corpus overflows.")
claim("C67", "partial", [A + "C67_fails", A + "C67_ignored", A + "C67_calls_partial"],
      "False: the program reads the value of --continue instead, which is not given, so it always stops with an exception. The calls that follow would be right.")
claim("C83", "proved", [A + "C83_progress"], "For any history of epochs; the counter is an int.")
claim("C84", "proved", [A + "C84_continue", A + "C84_no_file", A + "C84_scratch", A + "C84_unsupervised_continue",
      A + "C84_unsupervised_scratch", A + "C84_transform"],
      "docopt's parsing of the command line is not modelled; the model starts from its values.")

EN = "Verif.Entry."
claim("C72", "partial", [EN + x for x in ["C72_fit_partial", "C72_transform_partial", "C72_undefined"]],
      "False: every E step but the unsupervised one casts the document to a ClassificationDocument (proved undefined). Exact characterisation for all corpora: defined iff the steps look at no label.")
claim("C85", "partial", [EN + x for x in ["C85_undefined", "C85_documents_partial", "C85_labelled"]],
      "False: the corpus that fit(X, y) builds has undefined behaviour for negative labels (proved). True for documents from a corpus of the user.")
claim("C86", "partial", [EN + x for x in ["C86_combinations_partial", "C86_undefined"]],
      "False: the correspondence M step needs the variational parameters of the correspondence E step (proved). All other pairs are proved defined for any sequence of documents, whenever the E step is defined; the online M step is covered by C52.")
claim("C87", "partial", [TR + x for x in ["C87_resume_partial", "C87_constant_weight", "C87_decay", "C87_online"]],
      "False for the online M step, which keeps the counts of all earlier documents (proved with a concrete witness), and for the exponentially decaying weight, which starts again (proved). True for every batch M step with every E step that does not count epochs, for all corpora, schedules, shuffles and splits.")
claim("C88", "proved", [F + "C88_accuracy", F + "C88_large"], "Exact arithmetic, with rounding see C132; the digamma function is Mathlib's logarithmic derivative of the Gamma function.")
claim("C89", "proved", [E + "C89_gamma_maximises"], "Exact arithmetic; the bound is `elbo` of Props/Likelihood.lean, equations (14) and (15) of Blei 2003.")
claim("C90", "proved", [E + x for x in ["C90_iteration", "C90_exact", "C90_actual", "C90_finite", "C90_more_iterations"]],
      "Monotone with exact exp and digamma, for single iterations and for whole runs; with fast_exp and digamma as they are the loss per iteration is bounded by M/250 per word, where M >= 1 bounds |digamma(gamma)|.")
claim("C91", "partial", [E + x for x in ["C91_elbo_le", "C91_reported_partial", "C91_repeated_word"]],
      "False when a word occurs twice: for two copies of a word that one topic of two knows the reported value exceeds the log-probability by more than 1/3 (proved). True for documents without repeated words and any exp and digamma; the evidence lower bound itself is proved to be one, for all variational parameters.")
claim("C92", "proved", [E + "C92_" + x for x in ["unsupervised", "fast", "supervised", "multinomial", "correspondence"]],
      "Equality of the whole result, including undefined behaviour, in exact arithmetic.")
claim("C93", "partial", [E + "C93_" + x for x in ["unsupervised", "fast", "multinomial", "correspondence", "supervised_partial", "supervised_depends"]],
      "False for the supervised step, which updates gamma from word to word: exchanging two words changes gamma (proved). True for the other four steps, and for the supervised step as long as the words of the document keep their order.")
claim("C94", "proved", [E + "C94_" + x for x in ["fast", "correspondence", "multinomial"]],
      "The multinomial step needs the exact exponential, because there the factor that cancels is inside of exp; its threshold for convergence is the likelihood fraction (see C38). The supervised step has no weight and is not covered.")
claim("C95", "proved", ["Verif.Pool.C95_bounded", "Verif.Pool.C95_possible", "Verif.Pool.C95_orders", "Verif.Pool.C95_one_worker"],
      "An equivalence: the orders that occur are exactly these.")
R = "Verif.Rounded."
claim("C96", "proved", [R + x for x in ["C96_topics", "C96_schedules", "C96_normalize", "C96_gamma"]],
      "For any rounding function with relative error u < 1 and any order of the additions inside of Eigen's sums; rounding to p significant bits is proved to be one, with u = 2^-p. Overflow and underflow are left out. One epoch; the E step that gives phi is arbitrary.")
claim("C97", "partial", [R + "C97_depends", R + "C97_one_worker_partial"],
      "False with two workers: for every precision of at least two bits three documents are given that yield different topics under two schedules that both can occur (proved). True with one worker, for every M step and arithmetic.")
claim("C98", "partial", [E + "C98_" + x for x in ["sweep_partial", "more_iterations_partial", "finite", "repeated_word"]],
      "False when a word is repeated: for a document of three copies of a word one iteration makes the bound worse (proved with exact exp and digamma). True for documents without repeated words, for single sweeps and for whole runs, with exact exp and digamma.")
claim("C99", "partial", [E + "C99_" + x for x in ["multinomial_partial", "correspondence_partial", "multinomial_value", "correspondence_value", "prior"]],
      "False with several topics: the normaliser of the Dirichlet prior is counted once instead of once per topic (proved: with mu = 2 and two classes the report is too small by (K-1) log 6 / D). The exact formula is proved for documents without repeated words; with repetitions the part of plain LDA deviates as in C68.")
claim("C100", "proved", [E + "C100_" + x for x in ["iteration", "more_iterations", "finite"]],
      "With exact exp and digamma. The threshold of the step is the likelihood fraction (see C38), and the statement is about that threshold.")
claim("C101", "partial", [E + "C101_" + x for x in ["phi_partial", "iteration_partial", "more_iterations_partial", "not_a_choice", "not_a_choice_repeated", "exceeds_evidence", "evidence_partial", "evidence_run_partial"]],
      "False: tau is normalised over the vocabulary, so for a document without repeated words that misses a word it sums to less than one, for one that has all words and a repetition to more (both proved for all models), and the computed bound can exceed the log-probability (proved). True for documents with every word exactly once, where what is computed is also proved to be a lower bound of the log-probability of document and class, as it is for every document if tau is a distribution over its words; the update of phi and gamma improves the bound for every document.")
claim("C102", "partial", [T + "C102_" + x for x in ["unsupervised", "multinomial", "correspondence_partial", "correspondence_topics"]],
      "False for the topics of the correspondence M step, whose word counts are weighted by tau although tau does not weigh the words in the bound (proved with a witness, for any number of iterations of the E step). True for the unsupervised step, for the multinomial step with mu >= 1 and a weight of one, and for the class parameters of the correspondence step.")
claim("C103", "partial", [TR + "C103_m_step_partial", TR + "C103_decreases"],
      "False: the E step starts anew in every epoch and can end at worse variational parameters (proved with a document of one word and two topics, for any number of iterations and any schedule, with exact exp and digamma). True at the variational parameters of the epoch, for all schedules, shuffles and numbers of workers and any exp and digamma.")
claim("C104", "proved", [P + "C104_moves"],
      "In both directions; the proof needs that no call leaves a document or result queued, whichever thread makes it, because the move constructor drops the queues.")
claim("C105", "proved", [P + "C105_conserved", P + "C105_order", P + "C105_own_events", P + "C105_flushed"],
      "Simulation between a call that finds events queued and one that does not, then the invariants of C01 to C07.")
claim("C106", "partial", [R + "C106_frequencies_partial", R + "C106_stuck", R + "C106_wrong"],
      "False for more than 2^p documents (p = 24): the count of a class stays at 2^p, so that classes of 2^p and 2^(p+1) documents both get prior 1/2. True, with an exact sum in every order, up to 2^p documents.")
claim("C107", "partial", [P + "C107_conserved", P + "C107_extremes", P + "C107_one_worker_partial", P + "C107_depends", P + "C107_number_depends"],
      "False with two workers: which documents report depends on the schedule, and with the generator of libstdc++ and the default seed even how many. True with one worker and for the fractions 0 and 1. For every schedule each number is used exactly once and each document gets its share.")
claim("C108", "partial", [E + "C108_unsupervised_partial", E + "C108_fast_partial", E + "C108_supervised_partial", E + "C108_multinomial_partial", E + "C108_correspondence_partial", E + "C108_short", E + "C108_long"],
      "False: the change compared with the tolerance is the mean absolute change. Proved for all five steps: the rule is the relative one with the tolerance multiplied by the number of topics and divided by the sum of alpha and the number of words. A short document can be returned without a single iteration, a long one is iterated longer than documented.")
claim("C109", "partial", [N + "C109_scalar", N + "C109_empty", N + "C109_empty_matrix", N + "C109_large", N + "C109_two_dimensions_partial", N + "C109_any_dimensions_partial", N + "C109_silent"],
      "False: arrays without dimensions or without elements are undefined behaviour, arrays of two dimensions with 2^31 elements or more give an exception or undefined behaviour depending on the remainder modulo 2^32, and with three dimensions a file can be taken for a much smaller one. Proved: an array of two dimensions that is loaded has its own shape.")
claim("C110", "partial", [R + "C110_search_partial", R + "C110_minimize_partial", R + "C110_unchecked", R + "C110_terminates", R + "C110_increases"],
      "False: when the decrease demanded of the first step (of twice the length of the first step documented) is below a quarter of the last place of the value, that step is made without evaluating the objective, which can increase, while the value returned is the old one, so that the M step stops there. Proved: this is the only way in which the objective can increase; and with tau at most 1/2 every search ends, for every function and direction.")
claim("C111", "proved", [O + "C111_m_step", T + "C111_fast"],
      "In exact arithmetic (C110 has the rounding). The bounds are explicit: with N documents, penalty L and m = max(1, 1000/999 (L + 2N)), (||eta0 - eta*||^2 + 1000 f(eta0)) m / (2 iterations), and 500 tolerance f(eta') m / L for a penalty above zero; without penalty the square of the excess is bounded by the tolerance. The second is the factor by which the tolerance is weaker than it looks.")
claim("C112", "partial", [P + "C112_safe_partial", P + "C112_usable_partial", P + "C112_terminates", P + "C112_threads_left", P + "C112_jobs_left", P + "C112_stale_call", P + "C112_never_recovers"],
      "False: an exception while documents are processed (a listener, doc_m_step) or when a thread but the first is created leaves joinable threads, so that the destructor and the next call terminate the program; one while documents are queued or when the first thread is created leaves jobs, and then every later call hands results of other documents to the M step, for ever. Proved: an exception before anything is queued, or of the batch M step or a listener of the end of the epoch, leaves an object whose later calls do what they do on a new one.")
claim("C113", "partial", [E + "C113_unsupervised", E + "C113_unsupervised_exact", E + "C113_unsupervised_actual", E + "C113_multinomial_exact", E + "C113_supervised_exact", E + "C113_fast_never_settles", E + "C113_fast_negation"],
      "False for the fast supervised step: with two topics, two classes and a document of one word it alternates for ever between two results that are far apart, whatever the (small) tolerance, so the result depends on whether the limit of the iterations is odd. Proved: for the unsupervised step with any functions for which exp(psi(x)) grows with x, in particular the exact ones and fast_exp and digamma as they are (prior at least 1/50, at most 10^40 words); for the multinomial step with exact functions, where compute_likelihood is the tolerance (C38); and for the supervised step with exact functions, for documents whose words are known, repeated ones included, where the number of iterations also depends on the range of the classification parameters. Not treated: the correspondence step, and the multinomial and the supervised step with fast_exp.")
claim("C114", "partial", [Cp + "C114_every_order_once", Cp + "C114_position", Cp + "C114_fit_partial", Cp + "C114_partial_fit_same_order"],
      "False for partial_fit(X, y): every call makes a corpus of its own with the default seed, so all calls go through the documents in the same order, the one of the first epoch of fit; the seed of the LDA has no influence. Proved: a shuffle leads to every order for exactly one choice of the numbers, hence the documented probability, and the epochs of fit have every sequence of orders for exactly one choice. That the numbers of the generator are equally likely is assumed, and so is the way in which std::shuffle uses them (Fisher-Yates).")
claim("C115", "partial", [E + "C115_unsupervised", E + "C115_fast", E + "C115_supervised", E + "C115_multinomial", E + "C115_correspondence",
      DE + "C115_scores", DE + "C115_predict", DE + "C115_ties_negation",
      T + "C115_fast_m_partial", T + "C115_supervised_m_partial", T + "C115_multinomial_m", T + "C115_online_partial", T + "C115_online_negation",
      TR + "C115_fit_fast_partial", TR + "C115_fit_semi_partial", TR + "C115_fit_supervised_partial", TR + "C115_fit_multinomial", TR + "C115_fit_correspondence"],
      "False for the supervised steps when a class has no document in the corpus or in a minibatch: the weight of a class depends on the highest number among the labels, so the same document with label 1 in place of 0 moves eta half as far (C115_online_negation); and when two classes have the same score predict takes the one with the smaller number (C115_ties_negation). Proved: all E steps, the multinomial and correspondence models without a condition, the other M steps and all of training when the highest number in use is the same in both numberings, which it is if every class has a document, and predictions when one class is best.")
claim("C116", "partial", [T + "C116_fast_m", T + "C116_supervised_m", T + "C116_multinomial_m", T + "C116_online",
      TR + "C116_fit_unsupervised", TR + "C116_fit_fast", TR + "C116_fit_semi", TR + "C116_fit_supervised", TR + "C116_fit_multinomial", TR + "C116_fit_correspondence",
      TR + "C116_lda", TR + "C116_flda", TR + "C116_slda_partial", TR + "C116_multinomial", TR + "C116_correspondence", DE + "C116_scores"],
      "False for the vocabulary with the supervised E step, whose fixed point visits the words in order (C93_supervised_depends). Proved for every M step and for training with any E step that commutes with the renumbering; the E steps of LDA, fLDA, multinomial and correspondence LDA do, and the supervised one does for the topics (C116_slda_partial). The scores of decision_function are the same numbers, finite or not.")
claim("C117", "partial", [DE + "C117_predict_partial", DE + "C117_guide_partial", DE + "C117_margin_partial", DE + "C117_negation"],
      "False: the code subtracts the prior alpha from the variational parameters, the formula of the guide does not, and for short documents they choose different classes (C117_negation, with the expectation step and its defaults). Proved: exactly which class is predicted; the formula of the guide is right if the prior contributes the same to every class, and for each document for which its best class is ahead by more than the prior's contributions differ.")
claim("C118", "proved", [TR + "C118_lda", TR + "C118_flda", TR + "C118_semi", TR + "C118_slda", TR + "C118_multinomial", TR + "C118_correspondence", TR + "C118_fit_unsupervised", TR + "C118_fit_fast", TR + "C118_fit_semi", TR + "C118_fit_supervised", TR + "C118_fit_multinomial", TR + "C118_fit_correspondence", TR + "C118_needs_iteration"],
      "Proved for the five models and the semi-supervised one with their own expectation steps, and for every maximisation step with any expectation step that gives a word only to topics that know it. The supervised step needs documents of at most 46340 words (C80) and known words. In exact arithmetic. C118_needs_iteration shows that the condition on the iterations is needed: with none, every topic takes up every word.")
claim("C119", "partial", ["Verif.Races.C119_no_race", "Verif.Races.C119_races_partial", "Verif.Races.C119_online_race"],
      "Holds for all batch maximisation steps (C119_no_race), where race and happens-before are those of the C++ standard. False with FastOnlineSupervisedMStep: the calling thread updates the model parameters while workers read them (C119_online_race); that is the only location (C119_races_partial). Listeners may call back into the dispatcher (add, remove, dispatch), and other threads may do the same at any time. Assumes that no worker has the thread identifier the dispatcher stores (C120), and that a constructing thread that is not the calling one does not dispatch during a call: it would run the listeners itself. The accesses of Eigen, of the standard library and of the listeners of the user to globals of their own are not modelled.")
claim("C120", "partial", ["Verif.Threads.C120_listeners_not_on_workers_partial", "Verif.Threads.C120_fresh_identifiers_partial", "Verif.Threads.C120_one_thread", "Verif.Threads.C120_caller_runs_listeners", "Verif.Threads.C120_reused_identifier"],
      "Holds while the thread that constructed the object has not ended, and when the system never gives an identifier twice. False otherwise: the dispatcher stores the identifier of the constructing thread only, a worker that is given the same identifier later runs the listeners itself, at the same time as the caller (C120_reused_identifier). Also events/Events.hpp says that process_events can only be called on the creating thread; any thread that trains does it (C120_caller_runs_listeners).")
claim("C121", "proved", ["Verif.Races.C121_never_stuck", "Verif.Races.C121_bounded", "Verif.Races.C121_can_complete", "Verif.Races.C121_no_worker"],
      "At the level of single lock operations, signals and waits: some thread can always go on (C121_never_stuck) and the number of steps is bounded for every scheduler, but for waits that end without reason, each of which may add a few steps (C121_bounded). With documents and no worker the call hangs (C121_no_worker, as in C05). A listener that dispatches a new event at every event never stops: the callbacks are assumed to be finitely many. std::lock is modelled as two locks in one order; exceptions are not thrown here (see C112).")
claim("C122", "partial", ["Verif.Fine.C122_same_outcomes_partial", "Verif.Fine.C122_large_steps_exist", "Verif.Fine.C122_one_model_partial", "Verif.Fine.C122_sequential_partial", "Verif.Fine.C122_online_mixes_models"],
      "False for the online M step, which writes the model while workers read it: a document can be used with a result that comes from no single model (C122_online_mixes_models). Proved for the batch M steps, by simulation in both directions with the machine of C01-C08, so that those claims hold for the small steps as well.")
claim("C123", "partial", ["Verif.Disk.C123_other_files", "Verif.Disk.C123_no_mixture", "Verif.Disk.C123_old_model_kept", "Verif.Disk.C123_snapshots_partial", "Verif.Disk.C123_complete_partial", "Verif.Disk.C123_load_partial", "Verif.Disk.C123_cut_loads", "Verif.Disk.C123_old_model_lost"],
      "False: saving empties the file first, so that an interruption can lose the old model (C123_old_model_lost), and a file cut inside its last array is loaded without an error with zeros at the end of eta; a full disk has the same effect and is not reported (C123_cut_loads). Proved: nothing else can go wrong. Until fit returns the old model is there, finished snapshots stay, no file mixes two models, and what is loaded from a cut file has the alpha and beta of the new model and a beginning of its eta.")
claim("C124", "partial", ["Verif.Programs.C124_output_partial", "Verif.Programs.C124_same", "Verif.Programs.C124_returns", "Verif.Programs.C124_unreadable", "Verif.Programs.C124_no_workers", "Verif.Programs.C124_labels_wanted", "Verif.Programs.C124_shapes"],
      "False: documents over another vocabulary than the model's are not refused (C124_shapes), slda and fslda refuse a file with documents only, though transform does not use labels (C124_labels_wanted), and with --workers=0 the program does not end (C124_no_workers). Proved: in all other cases with at least one worker the output is the array that the statement describes, bit for bit the same for every number of workers and schedule.")
claim("C125", "partial", ["Verif.Programs.C125_files_partial", "Verif.Programs.C125_lda_partial", "Verif.Programs.C125_same", "Verif.Programs.C125_programs", "Verif.Programs.C125_returns", "Verif.Programs.C125_unreadable", "Verif.Programs.C125_no_workers"],
      "False: with --workers=0 the training does not end (C125_no_workers), and what the disk refuses goes unnoticed (C123). Proved for exact sums, on a disk that grants everything: with at least one worker the files are those of the sequential loop, undefined behaviour of a maximisation occurs under all schedules or none, and for lda train it does not occur. In floating point the order of the sums matters (C08, C97).")
claim("C126", "partial", ["Verif.Counts.C126_words_partial", "Verif.Counts.C126_used", "Verif.Counts.C126_too_many", "Verif.Counts.C126_undefined", "Verif.Counts.C126_misused", "Verif.Counts.C126_order", "Verif.Counts.C126_negative"],
      "False for documents of more than 2^31-1 words: no order gives their number (C126_too_many), the additions of C++ are undefined behaviour in every order (C126_undefined), and if they wrap the number and with it the shares of the words are negative (C126_misused). Counts below zero are not refused: the sum may then depend on the order (C126_order), and a document with a total of -1 makes digamma divide by zero for every topic (C126_negative). Proved: for all documents whose counts add up to an int every order and grouping gives the sum.")
claim("C127", "partial", ["Verif.Limits.C127_pass_partial", "Verif.Limits.C127_double_partial", "Verif.Limits.C127_float_partial", "Verif.Limits.C127_double_prior_partial", "Verif.Limits.C127_float_prior_partial", "Verif.Limits.C127_double_default_partial", "Verif.Limits.C127_float_default_partial", "Verif.Limits.C127_lost_double", "Verif.Limits.C127_lost_float"],
      "False: with the prior 1/K of the builder and K at least 715 times (with float 92 times) the number of words plus one, the exponentials of all topics underflow to zero, normalize_cols skips the zero columns, and from the first pass on the result is the prior, whatever the model: all words are lost without a message (C127_lost_double, C127_lost_float; e.g. documents of one word and 1430 topics, or with float of four words and 500 topics). Proved: a pass accounts for all words unless all weights of a word underflow, and none do if the prior is at least 1/97 (float: 1/29) and every word has probability at least 2^-800 (2^-85) in some topic, or if the prior is at least 1/697 (1/84) and the probability at least 2^-63 (2^-23), or with the prior 1/K of the builder for documents of any length up to 1392 topics (167), if every entry of beta is zero or at least 2^-63 (2^-23) and every word has some topic; so for documents of one word the limit is between 1392 and 1430 topics (167 and 184). For longer documents the numbers of topics in between are not treated.")
claim("C128", "partial", ["Verif.View.C128_safe_partial", "Verif.View.C128_fit_partial", "Verif.View.C128_document", "Verif.View.C128_priors", "Verif.View.C128_orphan", "Verif.View.C128_leftover", "Verif.View.C128_grown"],
      "False in three ways. The pointer to its corpus that a document returns is a shared_ptr with a deleter that does nothing: it does not keep the corpus, and every use is undefined once nobody else has the corpus (C128_orphan). The corpora refer to the caller's matrix: after a call that was left by an exception the queue still holds jobs, and if that matrix ends the next call is undefined whatever its own corpus (C128_leftover). size() follows the matrix but the index vector does not: with more columns than at construction training is undefined (C128_grown). Besides, the class priors are those of the labels at construction, not of the present ones (C128_priors). Proved: documents keep their words and class in every history (C128_document); for a caller who lets matrices and labels outlive the corpora and the jobs that refer to them, keeps their sizes and uses the corpus of a document only while somebody owns it, no history is undefined (C128_safe_partial), and training gets the present documents, each once (C128_fit_partial).")
claim("C129", "partial", ["Verif.Overflow.C129_double_partial", "Verif.Overflow.C129_float_partial", "Verif.Overflow.C129_over_double", "Verif.Overflow.C129_over_float", "Verif.Overflow.C129_under_double", "Verif.Overflow.C129_under_float", "Verif.Overflow.C129_ratio_double", "Verif.Overflow.C129_ratio_float"],
      "False: the softmax of the class scores is computed without subtracting their maximum. If all the weights of one class are 900 or more (110 with float) it is infinity divided by infinity, and if all weights of all classes are -900 (-110) or less it is zero divided by zero; NaN then reaches fast_exp, whose conversion to an index is undefined, in the first pass and for every document with words (C129_over_*, C129_under_*). Small weights do not help, since they are divided by their maximum: with weights a for the class of the document and -1 for the other, 2^-30 <= a <= 2^-20, phi is NaN after the first pass and the second one is undefined (C129_ratio_*). Proved: weights of absolute value at most 500 (50 with float) whose ratio to their maximum times the weight of the classes is at most 250 (16) keep all numbers finite and all passes defined (C129_double_partial, C129_float_partial). What lies between these bounds is not treated.")
claim("C130", "partial", ["Verif.EStep.C130_unsupervised_partial", "Verif.EStep.C130_correspondence_partial", "Verif.EStep.C130_multinomial_partial", "Verif.Overflow.C130_supervised_undefined", "Verif.Overflow.C130_supervised_first", "Verif.EStep.C130_fast_report", "Verif.EStep.C130_tolerance", "Verif.EStep.C130_fast_differs", "Verif.EStep.C130_asymmetric"],
      "False: the supervised step divides by the sum of the products of an unknown word, which is zero, and NaN reaches fast_exp, whose conversion to an index is undefined. Every run with two or more iterations that do not stop at the first test is undefined as soon as there is one unknown word, whatever the model, and a run with one iteration if another word follows it (C130_supervised_undefined, C130_supervised_first). This happens when the supervised step continues from topics learnt on other documents. The fast step stays finite, but reports NaN as the likelihood (C130_fast_report), and averages over all words of the document, so that unknown words change the topics of the known ones (C130_fast_differs). The unsupervised step starts from the number of all words, so that with a positive tolerance the number of iterations may differ (C130_tolerance), and with a prior that differs between the topics its first iteration does (C130_asymmetric). Proved: with a symmetric prior and no early stop the unsupervised, correspondence and multinomial steps return what they return for the document without the unknown words, the unsupervised one also the same likelihood. The multinomial step with fast_exp instead of the exponential is not treated. Definedness of these steps is C35.")
claim("C131", "partial", ["Verif.Optim.C131_descends_partial", "Verif.Optim.C131_ends_partial", "Verif.Optim.C131_stops", "Verif.Optim.C131_overflow", "Verif.Optim.C131_underflow", "Verif.Optim.C131_nan"],
      "False: the line search stops when the new value is not greater than the bound, and NaN is not. With a penalty of 1000, two documents and weights of absolute value one it accepts a step to NaN, the M step ends there and the documented objective has grown (C131_nan). If the objective is not finite at the start the M step leaves the weights as they are and reports success with an infinite value, plus infinity (better than everything) if all weights are too small (C131_stops, C131_overflow, C131_underflow). Proved for penalties up to one (the default is 0.01) and weights whose sum over the classes is not negative in any topic, such as the initial zeros: the sum stays so, hence some exponential is at least one, values are finite or plus infinity and never NaN, the search rejects the infinite ones, and the M step ends. Only the range of the exponential is limited here, the other operations are exact; the second order objective is not treated.")
claim("C132", "proved", ["Verif.Primitives." + x for x in ["C132_digamma_ends", "C132_digamma", "C132_digamma_returns", "C132_assumption", "C132_fast_exp", "C132_fast_exp_outside", "C132_fast_exp_returns", "C132_double", "close_fl", "double_fl", "single_fl", "single_fl_double"]],
      "The roundings are arbitrary numbers within the error of the format, so the same result holds for fused or wider operations; that rounding to nearest in float, double and first double then float is within it is proved (double_fl, single_fl, single_fl_double). The library's log and exp are assumed to err by at most one unit in the last place. Overflow is not modelled: the bounds are for results within the range of the format. C132_assumption is what C127, C129 and C130 assume of digamma.")
claim("C133", "partial", [P + x for x in ["C133_answers_partial", "C133_training_partial", "C133_late_partial", "C133_returns_partial", "C133_bounded_partial", "C133_terminates", "C133_nested_twice", "C133_dead_only", "C133_other_thread", "C133_continued_partial", "C133_seen", "C133_nest"]],
      "False while documents are processed: a call made by a listener of an ExpectationProgressEvent, or of the MaximizationProgressEvent of an online M step, or of an event of a nested call, assigns to threads that are joinable and std::terminate is called, always; so does a call by another thread between the creation of the first worker and the last join. True for the events of m_step and of the end of an epoch: the nested call is answered correctly and the outer call is an execution of the call without it. A nested call of partial_fit from the event that ends an epoch trains as if it had been made after the outer one, at any depth, but listeners called later get that event with the parameters of the later epoch (C133_continued_partial, C133_seen); from an event of m_step it is not treated. Which documents report their likelihood later does change, as a nested call takes random numbers of the E step (C107).")
claim("C134", "partial", [E + "C134_" + x for x in ["bound", "fast_partial", "supervised_partial", "repeated_word", "repeated_word_supervised"]],
      "False when a word occurs twice: for two copies of a word that one topic of two knows, and parameters of the classes that are still zero, both steps report more than the log-probability plus 3/10 (proved). True for documents without repeated words and any exp and digamma functions, with an error for exp that is a parameter (`fast_close` bounds it for fast_exp). The bound that the supervised step improves (C98) is proved to be a lower bound for every document, repeated words included: the expected normaliser with equal topics for equal words is at least the one with independent topics.")
claim("C135", "partial", [E + "C135_" + x for x in ["bound_partial", "reported_partial", "one_word", "prior_partial", "exceeds", "positive"]],
      "False: what the model puts in the place of the probability of the class, the product of the votes of the words divided by powers of the prior, is no probability. With one topic, one word and two classes of prior 1/2 a document of three words has probability one, but the value reported exceeds the share by more than 1, and the excess grows without limit with the length of the document (proved, for any exp and digamma). True: the bound for all documents, and the report for documents without repeated words, with the expectation of that product in the place of the probability; it is a probability for documents of one word, and at most one if no topic favours the class over its prior, where the report is at most the log-probability of the words.")
claim("C136", "partial", ["Verif.Overflow.C136_" + x for x in ["double_partial", "float_partial", "over_double", "over_float", "under_double", "under_float"]],
      "False: the exponentials of the weights times the share of a word in the document are not guarded. One weight of 711 (float: 90) in relation to that share makes a product infinite, then the normalised h infinity times zero, and NaN reaches fast_exp, whose conversion to an index is undefined; a class whose weights are all that negative makes the product zero and divides zero by zero. This holds for every device, prior, tolerance that does not stop at the first test, class of the document and rest of the model (C136_over_*, C136_under_*). Proved for moderate models: weights of at most 8, and at most 5/2 (float: 3/2) in relation to the share of the most frequent word, priors of at least 1/200 (1/20), no word of the document with probability below 2^-60 (2^-23) in all topics, and a number of updates for which the errors of gamma, which accumulate because it is updated by differences, stay below half the prior; the bound of the accumulated error is part of the statement. Not treated: weights in between. Documents without words are C40 and C75, words that no topic knows C130.")
claim("C137", "partial", ["Verif.Overflow.C137_" + x for x in ["multinomial_double_partial", "multinomial_float_partial", "correspondence_double_partial", "correspondence_float_partial", "weightless", "multinomial_negative", "correspondence_negative", "correspondence_undefined", "lost", "lost_double", "lost_float"]],
      "False: the logarithm of the probability of the class is not guarded. If a topic does not produce the class (probability zero, as for mu = 1, a class without documents or parameters of a logistic model), the correspondence step multiplies zero by minus infinity and passes NaN to fast_exp, whose conversion to an index is undefined; so does the multinomial step with eta_weight = 0, which is meant to ignore the class, and both steps for negative weights. If no topic produces the class, or if eta_weight times the logarithm is below -1200 (float: -160) for all topics, every exponential of the multinomial step is zero, every word is lost and gamma is the prior, whatever the document. Proved otherwise: the multinomial step for priors of at least 1/200 (1/16), eta_weight > 0, eta_weight*(1 - log eta) of at most 450 (24) for the topics that produce the class (zeros are allowed), and for each word of the document a topic that produces the class and the word with probability at least 2^-60 (2^-23); the correspondence step for priors of at least 1/50 (1/16), probabilities of the class of at least 2^-62 and of each word of the document of at least 2^-900 (2^-50) in some topic. Not treated: weights in between.")
claim("C138", "partial", ["Verif.Overflow.C138_" + x for x in ["unsupervised_double_partial", "unsupervised_float_partial", "multinomial_double_partial", "multinomial_float_partial", "correspondence_double_partial", "correspondence_float_partial", "multinomial_needs", "correspondence_needs", "multinomial_unseen", "correspondence_unseen"]],
      "False for the two steps with classes: the logarithm of eta is guarded nowhere and the prior term sums it over all topics and classes, so one zero or negative entry of eta, of any class, makes the report of every document infinite or NaN, and so does a zero prior of the class of the document. Without smoothing (mu = 1, where the M step leaves eta zero for classes without documents) the report is NaN for every document, which is what is dispatched for documents whose likelihood is not computed. Proved otherwise: the unsupervised step and its report for priors of at least 1/512 (float: 1/84), probabilities of each word of the document of at least 2^-60 (2^-23) in some topic and, in float, at most 2^24 entries of beta; the reports of the other two for the models of C137 with all entries of eta and the prior of the class in [2^-1074, 1], mu in [2^-20, 2^20], at most 2^16 classes and, in float, at most 2^24 entries of beta and of eta. The reports are at most 2^105 or 2^112 in absolute value. Not treated: smaller priors and probabilities.")
claim("C139", "partial", ["Verif.Overflow.C139_" + x for x in ["double_partial", "float_partial", "unused"]],
      "False: the M step divides the rows of its sums by their totals without a comparison with zero, so a topic that knows no word of the corpus is NaN after the first epoch, and in the next one fast_exp indexes its table with NaN, which is undefined, for every document with words (C139_unused). Proved for priors of at least 1/50 (float: 1/16), a start where each word of the corpus has a topic with at least 2^-100 and each topic a word of the corpus with at least 2^-21, at most 2^20 documents, topics and words and documents of at most 2^31 words (float: at most 2^24 entries of beta): after any number of epochs the topics sum to one up to (3V+5) units of rounding, each word of the corpus has a topic with at least 2^-100, all other words have probability zero, and the steps and reports of all documents are finite. Not treated: smaller priors and probabilities.")
claim("C140", "partial", ["Verif.Overflow.C140_" + x for x in ["multinomial_double_partial", "correspondence_double_partial", "correspondence_unsmoothed", "multinomial_unsmoothed"]],
      "False without smoothing (mu = 1): a topic that has no word of the documents of a class gets a weight of zero for it in the first epoch; in the second one the logarithm is minus infinity, zero times minus infinity is NaN and fast_exp indexes its table with NaN, which is undefined, in the correspondence step (C140_correspondence_unsmoothed); the multinomial step reports NaN for every document from then on (C140_multinomial_unsmoothed). Proved in double for smoothing of at least 1 + 2^-10 (correspondence: 1 + 2^-8), priors of at least 1/100 (1/50), class weights eta_weight of at most 7, a start with class weights of at least 2^-81 (2^-62) where each word of the corpus has a topic with at least 2^-95 (2^-280), at most 2^20 documents, topics and words, 2^16 (2^10) classes and documents of at most 2^31 (one to 2^20) words. Not treated: float, and values in between.")
claim("C141", "partial", ["Verif.MStep.C141_" + x for x in ["bounded_partial", "short_steps_partial", "diverges", "diverges_from_zeros", "no_penalty", "iff"]],
      "False if learning rate times penalty is at least 2 (1 + momentum): eta grows beyond every bound from zeros for documents of one class (C141_diverges_from_zeros) and, above that, for all documents if the entries of some topic do not add up to zero at the start (C141_diverges); the penalty drives the swing, so that more regularisation makes it worse. Proved for every positive product below that (C141_bounded_partial), and with the bound minibatch / penalty, which holds for the scores too, if it is at most (1 - sqrt(momentum))^2, as with the defaults (C141_short_steps_partial). Without a penalty there is no bound (C141_no_penalty), so the condition is exact for two classes and minibatches of one document (C141_iff). Over the real numbers.")
claim("C142", "partial", ["Verif.Overflow.C142_" + x for x in ["nonneg", "special", "negative_partial", "iff", "ninf", "fast", "unsupervised", "supervised", "negative_prior"]],
      "False for numbers below -2^prec - 2 (prec is 24 for float, 53 for double) and for minus infinity: adding one does not change them or stops changing them, and the loop runs forever (C142_iff gives the exact condition, C142_ninf). Hence a document is never finished if alpha is at most -2^(prec+2) (C142_negative_prior). Proved for all other numbers: within 2|x| + 15 rounds (C142_negative_partial), at most seven if not negative (C142_nonneg) and none for NaN and infinity (C142_special). With alpha and beta not negative all calls of the two steps take at most seven rounds (C142_fast, C142_unsupervised); the supervised step subtracts from gamma, and its calls take at most 2 i N + 15 rounds in pass i over a document of N words, as long as i N is at most 2^prec (C142_supervised).")
claim("C143", "proved", ["Verif.Train.C143_" + x for x in ["lda", "flda", "slda", "multinomial", "correspondence", "online"]] + ["Verif.Overflow.C143_" + x for x in ["lda_numbers", "multinomial_numbers", "correspondence_numbers"]],
      "From C116 with the two topics swapped: training mirrors itself. With the numbers of the machine by induction, under the assumption that the logarithm, digamma and sums give equal results for equal arguments (Eigen may compute some elements of an array with vector instructions and others without).")
claim("C144", "partial", ["Verif.Train.C144_" + x for x in ["lda", "multinomial_partial", "correspondence_partial", "smoothing", "descent"]] + ["Verif.Optim.C144_objective"],
      "False for the class parameters with smoothing: the number added to each count does not grow with the corpus, so r copies trained with mu' equal one copy trained with mu exactly when mu' - 1 = r (mu - 1), and with the same mu > 1 a concrete corpus gives another classifier. The classifiers trained by gradient: with the penalty multiplied by r as well, the objective is multiplied by r and has the same minima (C144_objective), but the descent with a limited number of steps ends elsewhere, because its first step is as long as the gradient: from zeros, one step on r copies of a document ends at r times the weights (C144_descent, r up to 500). Exact numbers.")
claim("C145", "partial", ["Verif.Train.C145_" + x for x in ["lda", "multinomial", "correspondence_partial", "gap"]],
      "Proved for LDA and the multinomial model; the smoothing then amounts to K (mu - 1) words per class. False for the correspondence model if a word of the vocabulary does not occur: that word takes a part of the weights of the words of a document, a part that differs between the classes, and a corpus of two documents gives 20/27 instead of 2/3. It holds there if every word of the vocabulary occurs. Exact numbers.")
claim("C146", "partial", ["Verif.Programs.C146_" + x for x in ["train_partial", "unnoticed", "transform_partial"]],
      "False: nobody looks at the state of the streams after writing, so the status is 0 for every pattern of refusals, also if the file could not be opened or is empty (C146_unnoticed). Proved: what the file holds for every pattern, namely the part of the result before the first refusal; it is the whole result exactly if nothing was refused, or the opening was refused and the file held the same already.")
claim("C147", "partial", ["Verif.EStep.C147_" + x for x in ["unsupervised", "fast", "multinomial", "correspondence_depends", "supervised_depends"]] + ["Verif.Train.C147_iteration"],
      "Proved for the unsupervised, fast supervised and multinomial steps and for an iteration of LDA. False for the correspondence step, which divides the class among the words of the vocabulary (a word that occurs twice and two variants that occur once each give another gamma), and for the supervised step, where the variant decides whether the word is looked at before or after another one. The likelihoods that are reported are not claimed to agree (C68). Exact numbers.")
claim("C148", "partial", ["Verif.Optim.C148_descent"] + ["Verif.Train.C148_" + x for x in ["training", "centred", "online", "second_order"]],
      "Proved for the descent on the logistic regression with any line search along the gradient, for training with FastSupervisedMStep and SemiSupervisedMStep, and for the online step on documents with words and labels that are classes. False for SupervisedMStep: from weights t and -t one step on a document with one word leaves weights that add up to less than zero, for every t that is not zero. Exact numbers.")
claim("C149", "partial", ["Verif.Decision.C149_predict", "Verif.MStep.C149_m_step", "Verif.MStep.C149_online", "Verif.EStep.C149_fast_step", "Verif.EStep.C149_supervised_step", "Verif.EStep.C149_fast_step_false", "Verif.EStep.C149_supervised_step_false", "Verif.Optim.C149_penalty", "Verif.Optim.C149_second_false"],
      "Proved for the predictions of documents with words, for the M steps with the first order objective and without a penalty (in every state, and for the online step for every history), and, with the exact exponential, for the supervised E step if the same number is added for all topics. False with a penalty. False for the fast E step, which divides the weights by the greatest of them: C149_fast_step says exactly how the strength of the class changes. False for the supervised E step if the numbers differ from topic to topic, even with a single class. False for the objective of SupervisedMStep, without a penalty too: its second order terms contain the weights themselves.")
claim("C150", "partial", [E + "C150_" + x for x in ["pass", "fast_partial", "two_classes_partial", "multinomial_partial", "correspondence_partial", "supervised_false"]],
      "False for the supervised step: with one word, two topics and two classes a document gets less of the topic that speaks for its class than from plain LDA (proved). Proved for the other steps with two topics, the exact exponential, any digamma function that does not decrease, and a tolerance of zero, so that both loops make all their passes; for a single pass of the fast step with any number of topics. With more topics the whole loop is not treated: there a topic can lose to a third one what it gains from a second.")
claim("C151", "partial", [F + "C151_" + x for x in ["pieces_partial", "drops", "rises_false", "nearly_partial"]],
      "False: at each of the integers 1 to 7, where the number of steps of the recurrence changes, the function falls by the same amount, between 3e-11 and 5e-11 (proved). Proved between neighbouring integers and for all arguments from seven on; over any distance the function falls by at most 5.7e-11.")
claim("C152", "partial", ["Verif.Train.C152_lda", "Verif.Train.C152_multinomial", "Verif.Train.C152_correspondence", "Verif.Optim.C152_weights_false"],
      "Proved for LDA and for the multinomial and correspondence models, classifier included (the documents without words need labels the model knows). False for the classifiers trained by gradient: such a document counts for the weights of the classes, so that the objective changes by more than a constant (proved; with given weights it would be a constant, C81). If the corpus has no other documents, the M step normalises zeros, which it does not do for an empty corpus; that case is left out.")
claim("C153", "partial", [T + "C153_" + x for x in ["topics", "start_partial", "lasting", "documents_false"]],
      "True of the topics at the start: their part is exactly the power of beta_weight. False of the documents: the counts b_ are never set back to zero (C53), so that after N minibatches the share of a word in a topic is at least 1 - beta_weight^N times what it got in the first minibatch, among all words that the topic ever got (C153_lasting); with one topic, exchanging the word of the first document makes a difference of (1 - beta_weight)/(n + 1) or more after n further documents, which no multiple of beta_weight^n bounds.")
claim("C154", "partial", [TR + "C154_" + x for x in ["training", "semi", "predict_partial", "semi_predict_partial", "second_order", "slda_partial", "multinomial_partial", "correspondence_partial", "untrained_false", "penalty_false"]] + [T + "C154_" + x for x in ["online", "online_predict_partial", "online_false"]],
      "Proved for the multinomial and correspondence models with a smoothing parameter above 1 and class probabilities at the start that are positive, and for fast and semi-supervised LDA trained from weights zero with a regularization penalty from 0 to 1 and at least one iteration of fit and of the descent: all weights of the class are then negative while those of a topic add up to zero over the classes (C148). C154_training and C154_semi are the invariant for every E step that does not put gamma below alpha. Not so without training: with weights zero the first class is predicted for every document, even if no document has it (C154_untrained_false). With a penalty above 1 the step of the line search can overshoot zero, so that the weight of a class without documents changes its sign (C154_penalty_false). The online step is treated likewise, for every history of calls and for settings with rate * penalty <= (1 - sqrt(momentum))^2, which the defaults meet (C154_online, C154_online_predict_partial); if rate * penalty is two or more, a class without documents is predicted after two documents (C154_online_false). For the second order approximation of supervised LDA the weights of such a class are negative, too, whatever the sign of the other weights, because 1 + s + s^2/2 is never negative (C154_second_order, C154_slda_partial); missing there is that some other class has a higher score, as the weights of a topic need not add up to zero (C148_second_order).")
claim("C155", "partial", [TR + "C155_labelled", TR + "C155_unlabelled_false"],
      "The first half is proved, with the E steps that the builder uses by default. The second half is false: without any class the m_step asks for the greatest of no labels, so fit is undefined from the first iteration on, for every E step (C155_unlabelled_false, see also C51_no_labels).")
claim("C156", "proved", [TR + "C156_" + x for x in ["same_model", "unsupervised", "fast_supervised", "semi_supervised", "supervised", "multinomial", "correspondence"]],
      "For the six batch M steps, each after any earlier use, and any E step whose result is a function of the document, the parameters and its epoch counter. The random numbers that an E step draws decide only which documents report a likelihood (C41, C107); a transform draws some of them, so it can change which documents of later trainings report theirs. transform of documents without labels is defined for the E steps that look at no label (C72).")
claim("C157", "proved", [TR + "C157_" + x for x in ["training", "semi", "second_order", "flda", "semi_lda", "slda"]],
      "Over the real numbers. The default class weights of all documents add up to at most the number of documents (C59), so the likelihood pulls no entry by more than that; the steps of the line search are at most one, so the penalty draws an entry towards zero without crossing it. With the second order approximation the pull is at most twice as strong, because s <= 1 + s^2/2. C157_training, C157_semi and C157_second_order are the invariant for every E step, C157_flda, C157_semi_lda and C157_slda the result for the library's E steps from weights zero, with the scores. Documents of up to 46340 words with the second order step (C80). Penalties above 1 are outside the claim, as the step can then overshoot (C154_penalty_false). The online step is C141.")
claim("C158", "proved", [TR + "C158_corpora"],
      "Over the real numbers, with a fixed vocabulary and number of classes. The calls are inductively given executions of the thread model, each with its own corpus, number of workers, shuffle and schedule. The further training is compared for an object whose M step has not been undefined (a division by zero, or a line search that does not end); C156 and C08 are the case of one corpus. The state of the E step (the seeds of its random numbers) is handed on to the new object.")
claim("C159", "proved", [TR + "C159_lda", TR + "C159_flda", TR + "C159_semi"],
      "For LDA, fast supervised and semi-supervised LDA, over the real numbers, with their own E and M steps; the other models are not treated (for supervised LDA C118 needs known words, which a second corpus need not have). Every topic must know a word that occurs in all the corpora, otherwise its row becomes 0/0. As in C118 an E step must do at least one iteration for every document (C118_needs_iteration).")
