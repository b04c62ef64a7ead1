{
 "claims": [
  {
   "property": "C01",
   "status": "proved",
   "theorems": [
    "Verif.Pool.C01_each_document_once",
    "Verif.Pool.C01_result_of_same_document"
   ],
   "note": "All schedules, corpus sizes and worker counts. For the online M step the result is that of an earlier model state of the same call."
  },
  {
   "property": "C02",
   "status": "proved",
   "theorems": [
    "Verif.Pool.C02_transform_columns"
   ],
   "note": ""
  },
  {
   "property": "C03",
   "status": "proved",
   "theorems": [
    "Verif.Pool.C03_no_deadlock",
    "Verif.Pool.C03_no_lost_wakeup"
   ],
   "note": ""
  },
  {
   "property": "C04",
   "status": "proved",
   "theorems": [
    "Verif.Pool.C04_bounded",
    "Verif.Pool.C04_no_infinite",
    "Verif.Pool.C04_maximal_returned"
   ],
   "note": ""
  },
  {
   "property": "C05",
   "status": "partial",
   "theorems": [
    "Verif.Pool.C05_returns_partial",
    "Verif.Pool.C05_zero_workers_never_return",
    "Verif.Pool.C05_zero_workers_stuck"
   ],
   "note": "False with zero workers and a nonempty corpus (negation proved); proved otherwise."
  },
  {
   "property": "C06",
   "status": "proved",
   "theorems": [
    "Verif.Pool.C06_nothing_left",
    "Verif.Pool.C06_calls_independent"
   ],
   "note": ""
  },
  {
   "property": "C07",
   "status": "partial",
   "theorems": [
    "Verif.Pool.C07_event_order_partial",
    "Verif.Pool.C07_event_before_consume",
    "Verif.Pool.C07_foreign_thread_no_epoch_event"
   ],
   "note": "Proved when the calling thread built the LDA object; false for another calling thread (witness proved)."
  },
  {
   "property": "C08",
   "status": "proved",
   "theorems": [
    "Verif.Pool.C08_schedule_independent",
    "Verif.Train.C08_partial_fit",
    "Verif.Train.C08_fit",
    "Verif.Train.C08_unsupervised",
    "Verif.Train.C08_fast_supervised",
    "Verif.Train.C08_semi_supervised",
    "Verif.Train.C08_supervised",
    "Verif.Train.C08_multinomial",
    "Verif.Train.C08_correspondence"
   ],
   "note": "For any E step, corpus, shuffle and earlier history of the M step; exact arithmetic. Definedness is schedule independent too."
  },
  {
   "property": "C09",
   "status": "partial",
   "theorems": [
    "Verif.Pool.C09_one_at_a_time_partial",
    "Verif.Pool.C09_one_worker_order",
    "Verif.Train.C09_one_worker_depends",
    "Verif.Train.C09_order_depends"
   ],
   "note": "False: with one worker the topics depend on whether the next E step starts before or after the minibatch update, with two also on the order of arrival (witnesses proved). True for schedules that evaluate one document at a time."
  },
  {
   "property": "C10",
   "status": "proved",
   "theorems": [
    "Verif.Pool.C10_fit_is_iterated_epoch",
    "Verif.Pool.C10_epochs"
   ],
   "note": "The number of epochs, steps and events for every M step, online ones included; the resulting model for batch M steps whose per-document updates commute."
  },
  {
   "property": "C11",
   "status": "proved",
   "theorems": [
    "Verif.Events.C11_process_notifies",
    "Verif.Events.C11_no_event_lost",
    "Verif.Events.C11_concurrent"
   ],
   "note": ""
  },
  {
   "property": "C12",
   "status": "proved",
   "theorems": [
    "Verif.Events.C12_removed_not_notified",
    "Verif.Events.C12_others_unaffected"
   ],
   "note": ""
  },
  {
   "property": "C13",
   "status": "partial",
   "theorems": [
    "Verif.Events.C13_added_is_notified_partial",
    "Verif.Events.C13_readded_listener_lost"
   ],
   "note": "False when the listener was removed since the last process_events (witness proved)."
  },
  {
   "property": "C14",
   "status": "partial",
   "theorems": [
    "Verif.Events.C14_ub_iff_partial",
    "Verif.Events.C14_remove_first_listener_ub",
    "Verif.Events.C14_circular_completes"
   ],
   "note": "Undefined behaviour exactly when the first registered listener was removed; harmless on circular list implementations."
  },
  {
   "property": "C15",
   "status": "proved",
   "theorems": [
    "Verif.Events.C15_dispatch_in_order",
    "Verif.Events.C15_remove_earliest",
    "Verif.Events.C15_remove_unknown",
    "Verif.Events.C15_history"
   ],
   "note": ""
  },
  {
   "property": "C16",
   "status": "proved",
   "theorems": [
    "Verif.Events.C16_own_thread_synchronous",
    "Verif.Events.C16_other_thread_queues",
    "Verif.Events.C16_refines"
   ],
   "note": ""
  },
  {
   "property": "C17",
   "status": "proved",
   "theorems": [
    "Verif.Corpus.C17_shuffle_keeps_labels"
   ],
   "note": "std::shuffle is modelled as the Fisher-Yates loop with arbitrary random draws; y has at least as many entries as X has columns."
  },
  {
   "property": "C18",
   "status": "proved",
   "theorems": [
    "Verif.Corpus.C18_priors",
    "Verif.Corpus.C18_undefined"
   ],
   "note": "Exact arithmetic instead of floats."
  },
  {
   "property": "C19",
   "status": "proved",
   "theorems": [
    "Verif.Numpy.C19_save_load"
   ],
   "note": ""
  },
  {
   "property": "C20",
   "status": "proved",
   "theorems": [
    "Verif.Numpy.C20_sequences",
    "Verif.Numpy.C20_data_file"
   ],
   "note": ""
  },
  {
   "property": "C21",
   "status": "proved",
   "theorems": [
    "Verif.Numpy.C21_valid_npy"
   ],
   "note": ""
  },
  {
   "property": "C22",
   "status": "proved",
   "theorems": [
    "Verif.Numpy.C22_version",
    "Verif.Numpy.C22_version_high",
    "Verif.Numpy.C22_empty",
    "Verif.Numpy.C22_type"
   ],
   "note": "Version bytes from 128 on are rejected only where char is unsigned; where it is signed they are read as version 1 (C22_version_high). The element type check for files whose header length is read correctly (little-endian hosts)."
  },
  {
   "property": "C23",
   "status": "proved",
   "theorems": [
    "Verif.Numpy.C23_numpy_files"
   ],
   "note": "Little-endian hosts."
  },
  {
   "property": "C24",
   "status": "partial",
   "theorems": [
    "Verif.Numpy.C24_byte_order_partial",
    "Verif.Numpy.C24_foreign_bytes_reversed",
    "Verif.Numpy.C24_byte_order_ignored"
   ],
   "note": "False: swap_endianess never stores the swapped bytes. The values survive exactly when every entry is a byte palindrome."
  },
  {
   "property": "C25",
   "status": "partial",
   "theorems": [
    "Verif.Numpy.C25_short_files_rejected_partial",
    "Verif.Numpy.C25_truncated_accepted",
    "Verif.Numpy.C25_silent_corruption",
    "Verif.Numpy.C25_header_cut"
   ],
   "note": "False for every cut inside the data (the rest is read as zero); proved for streams shorter than 24 bytes. For each cut inside the header of a saved matrix the outcome is proved: an exception, undefined behaviour, a column of zeros or a matrix of zeros, depending on the place."
  },
  {
   "property": "C26",
   "status": "proved",
   "theorems": [
    "Verif.Numpy.C26_model_round_trip"
   ],
   "note": ""
  },
  {
   "property": "C27",
   "status": "proved",
   "theorems": [
    "Verif.MathUtils.C27_normalize_rows",
    "Verif.MathUtils.C27_normalize_cols",
    "Verif.MathUtils.C27_idempotent",
    "Verif.MathUtils.C27_nonneg"
   ],
   "note": ""
  },
  {
   "property": "C28",
   "status": "proved",
   "theorems": [
    "Verif.MathUtils.C28_sums",
    "Verif.MathUtils.C28_zero_weight_ignored",
    "Verif.MathUtils.C28_finite",
    "Verif.MathUtils.C28_value",
    "Verif.MathUtils.C28_product",
    "Verif.MathUtils.C28_special",
    "Verif.MathUtils.C28_special_rows"
   ],
   "note": "Special values of IEEE 754 are modelled; overflow of finite numbers and signed zeros are not."
  },
  {
   "property": "C29",
   "status": "proved",
   "theorems": [
    "Verif.FastExp.C29_total",
    "Verif.FastExp.C29_table_size",
    "Verif.FastExp.C29_halvings",
    "Verif.FastExp.C29_no_overflow"
   ],
   "note": "Real arithmetic; halving and multiplying by 1024 are exact in binary floating point."
  },
  {
   "property": "C30",
   "status": "proved",
   "theorems": [
    "Verif.FastExp.C30_table",
    "Verif.FastExp.C30_accuracy",
    "Verif.FastExp.C30_outside",
    "Verif.FastExp.C30_reciprocal"
   ],
   "note": "Real arithmetic; with rounding see C132."
  },
  {
   "property": "C31",
   "status": "partial",
   "theorems": [
    "Verif.FastExp.C31_monotone_partial",
    "Verif.FastExp.C31_not_monotone"
   ],
   "note": "False across |x| = 100 (witness proved); monotone on [-100, 100] and outside it."
  },
  {
   "property": "C32",
   "status": "proved",
   "theorems": [
    "Verif.FastExp.C32_recurrence",
    "Verif.FastExp.C32_large",
    "Verif.FastExp.C32_defined",
    "Verif.FastExp.C32_positive"
   ],
   "note": ""
  },
  {
   "property": "C33",
   "status": "proved",
   "theorems": [
    "Verif.MathUtils.C33_matrix_to_vector",
    "Verif.MathUtils.C33_vector_to_matrix",
    "Verif.MathUtils.C33_round_trip",
    "Verif.MathUtils.C33_too_short"
   ],
   "note": ""
  },
  {
   "property": "C34",
   "status": "proved",
   "theorems": [
    "Verif.MathUtils.C34_product_of_nonzeros",
    "Verif.MathUtils.C34_divide"
   ],
   "note": ""
  },
  {
   "property": "C35",
   "status": "proved",
   "theorems": [
    "Verif.EStep.C35_unsupervised",
    "Verif.EStep.C35_fast",
    "Verif.EStep.C35_fast_empty",
    "Verif.EStep.C35_multinomial",
    "Verif.EStep.C35_correspondence",
    "Verif.EStep.C35_correspondence_tau",
    "Verif.EStep.C35_supervised",
    "Verif.EStep.C35_unsupervised_defined",
    "Verif.EStep.C35_fast_defined",
    "Verif.EStep.C35_multinomial_defined",
    "Verif.EStep.C35_correspondence_defined"
   ],
   "note": "Real arithmetic, with fast_exp and digamma as they are (fastPrims) or any others satisfying Prims."
  },
  {
   "property": "C36",
   "status": "proved",
   "theorems": [
    "Verif.EStep.C36_unsupervised",
    "Verif.EStep.C36_fast",
    "Verif.EStep.C36_supervised",
    "Verif.EStep.C36_multinomial",
    "Verif.EStep.C36_correspondence"
   ],
   "note": ""
  },
  {
   "property": "C37",
   "status": "proved",
   "theorems": [
    "Verif.EStep.C37_unsupervised",
    "Verif.EStep.C37_fast",
    "Verif.EStep.C37_supervised",
    "Verif.EStep.C37_multinomial",
    "Verif.EStep.C37_correspondence"
   ],
   "note": ""
  },
  {
   "property": "C38",
   "status": "partial",
   "theorems": [
    "Verif.EStep.C38_unsupervised",
    "Verif.EStep.C38_fast",
    "Verif.EStep.C38_supervised",
    "Verif.EStep.C38_correspondence",
    "Verif.EStep.C38_multinomial_partial",
    "Verif.EStep.C38_multinomial_tolerance_ignored"
   ],
   "note": "False for the multinomial step, which compares with compute_likelihood instead of the tolerance; proved for the other four."
  },
  {
   "property": "C39",
   "status": "partial",
   "theorems": [
    "Verif.EStep.C39_unsupervised",
    "Verif.EStep.C39_fast",
    "Verif.EStep.C39_multinomial",
    "Verif.EStep.C39_supervised",
    "Verif.EStep.C39_correspondence_depends",
    "Verif.EStep.fastPrims_distinguishes"
   ],
   "note": "False for the correspondence step (witness proved); proved for the other four."
  },
  {
   "property": "C40",
   "status": "partial",
   "theorems": [
    "Verif.EStep.C40_unsupervised",
    "Verif.EStep.C40_fast_partial",
    "Verif.EStep.C40_likelihood_undefined"
   ],
   "note": "Proved for the unsupervised step; the fast step reads column -1 of phi when the likelihood is reported (always, by default)."
  },
  {
   "property": "C41",
   "status": "partial",
   "theorems": [
    "Verif.EStep.C41_reporting_partial",
    "Verif.EStep.C41_multinomial_depends"
   ],
   "note": "False for the multinomial step (witness proved); proved for the other four."
  },
  {
   "property": "C42",
   "status": "proved",
   "theorems": [
    "Verif.EStep.C42_compute_h",
    "Verif.EStep.C42_compute_h_defined",
    "Verif.EStep.C42_sweep",
    "Verif.EStep.C38_supervised"
   ],
   "note": ""
  },
  {
   "property": "C43",
   "status": "proved",
   "theorems": [
    "Verif.EStep.C43_update",
    "Verif.EStep.C43_eta_zero",
    "Verif.EStep.C38_fast"
   ],
   "note": ""
  },
  {
   "property": "C44",
   "status": "proved",
   "theorems": [
    "Verif.EStep.C44_weight"
   ],
   "note": ""
  },
  {
   "property": "C45",
   "status": "proved",
   "theorems": [
    "Verif.SemiStep.C45_documents",
    "Verif.SemiStep.C45_epochs",
    "Verif.SemiStep.C45_destroyed",
    "Verif.SemiStep.C45_same_object_twice",
    "Verif.SemiStep.C45_library"
   ],
   "note": "For two different children; with one object as both every event arrives twice (proved)."
  },
  {
   "property": "C46",
   "status": "proved",
   "theorems": [
    "Verif.MStep.C46_topics",
    "Verif.MStep.C46_fast",
    "Verif.MStep.C46_second"
   ],
   "note": "Also for the two supervised batch steps."
  },
  {
   "property": "C47",
   "status": "partial",
   "theorems": [
    "Verif.MStep.C47_fast",
    "Verif.MStep.C47_second",
    "Verif.MStep.C47_unsupervised_partial",
    "Verif.MStep.C47_no_documents",
    "Verif.MStep.C47_multinomial_partial",
    "Verif.MStep.C47_multinomial_no_documents"
   ],
   "note": "False for an epoch without documents after one with: the unsupervised and multinomial steps then use the buffers as they were left (proved)."
  },
  {
   "property": "C48",
   "status": "partial",
   "theorems": [
    "Verif.MStep.C48_valid_partial",
    "Verif.MStep.C48_no_documents",
    "Verif.MStep.C48_topic_without_words"
   ],
   "note": "False for a topic that receives no words and for an epoch without documents (proved)."
  },
  {
   "property": "C49",
   "status": "proved",
   "theorems": [
    "Verif.MStep.C49_beta",
    "Verif.MStep.C49_eta",
    "Verif.MStep.C49_event",
    "Verif.MStep.C49_multinomial",
    "Verif.MStep.C49_correspondence"
   ],
   "note": ""
  },
  {
   "property": "C50",
   "status": "proved",
   "theorems": [
    "Verif.MStep.C50_fast",
    "Verif.MStep.C50_fast_trains",
    "Verif.MStep.C50_second",
    "Verif.MStep.C50_second_trains"
   ],
   "note": ""
  },
  {
   "property": "C51",
   "status": "proved",
   "theorems": [
    "Verif.MStep.C51_eta",
    "Verif.MStep.C51_beta",
    "Verif.MStep.C51_no_labels",
    "Verif.MStep.C51_defined"
   ],
   "note": ""
  },
  {
   "property": "C52",
   "status": "proved",
   "theorems": [
    "Verif.MStep.C52_count",
    "Verif.MStep.C52_m_step_no_op",
    "Verif.MStep.C52_between",
    "Verif.MStep.C52_update_eta",
    "Verif.MStep.C52_beta_stochastic",
    "Verif.MStep.C52_finite",
    "Verif.MStep.C52_defined",
    "Verif.MStep.C52_zero"
   ],
   "note": ""
  },
  {
   "property": "C53",
   "status": "partial",
   "theorems": [
    "Verif.MStep.C53_first_minibatch_partial",
    "Verif.MStep.C53_all_documents",
    "Verif.MStep.C53_not_only_minibatch",
    "Verif.MStep.C53_weights_ignored",
    "Verif.MStep.C53_weights_wrong"
   ],
   "note": "True of the first minibatch only; later ones include all earlier documents, and the class weights are not used (witnesses proved)."
  },
  {
   "property": "C54",
   "status": "proved",
   "theorems": [
    "Verif.Optim.C54_largest_step",
    "Verif.Optim.C54_returns"
   ],
   "note": "Real arithmetic."
  },
  {
   "property": "C55",
   "status": "proved",
   "theorems": [
    "Verif.Optim.C55_terminates",
    "Verif.Optim.C56_logistic_terminates",
    "Verif.Optim.C56_second_terminates"
   ],
   "note": "Real arithmetic."
  },
  {
   "property": "C56",
   "status": "proved",
   "theorems": [
    "Verif.Optim.C56_never_increases",
    "Verif.Optim.C56_m_step",
    "Verif.Optim.C56_events",
    "Verif.Optim.C56_terminates"
   ],
   "note": ""
  },
  {
   "property": "C57",
   "status": "proved",
   "theorems": [
    "Verif.Optim.C57_value",
    "Verif.Optim.C57_gradient",
    "Verif.Optim.C57_nonneg",
    "Verif.Optim.C57_undefined"
   ],
   "note": "Labels must be columns of eta; otherwise undefined behaviour (proved)."
  },
  {
   "property": "C58",
   "status": "proved",
   "theorems": [
    "Verif.Optim.C58_value",
    "Verif.Optim.C58_gradient",
    "Verif.Optim.C58_nonneg",
    "Verif.Optim.C58_needs_psd"
   ],
   "note": ""
  },
  {
   "property": "C59",
   "status": "proved",
   "theorems": [
    "Verif.Optim.C59_weights",
    "Verif.Optim.C59_balanced",
    "Verif.Optim.C59_total",
    "Verif.Optim.C59_absent_unused",
    "Verif.Optim.C59_undefined"
   ],
   "note": "The three copies of the code are one definition."
  },
  {
   "property": "C60",
   "status": "proved",
   "theorems": [
    "Verif.Decision.C60_scores",
    "Verif.Decision.C60_predict",
    "Verif.Decision.C60_all_scores",
    "Verif.Decision.C60_in_range",
    "Verif.Decision.C60_no_classes",
    "Verif.Decision.C60_nonempty",
    "Verif.Decision.C60_transform_predict",
    "Verif.Decision.C60_same_predictions"
   ],
   "note": "For documents whose gamma - alpha does not sum to zero; C60_nonempty shows that the E steps give such gammas for documents with words."
  },
  {
   "property": "C61",
   "status": "partial",
   "theorems": [
    "Verif.Decision.C61_finite_iff_partial",
    "Verif.Decision.C61_empty",
    "Verif.Decision.C61_empty_document"
   ],
   "note": "False: the scores of a document without words are NaN for every model (proved); finite otherwise."
  },
  {
   "property": "C62",
   "status": "partial",
   "theorems": [
    "Verif.Build.C62_build_partial",
    "Verif.Build.C62_never_partial",
    "Verif.Build.C62_defined",
    "Verif.Build.C62_eta_before_topics",
    "Verif.Build.C62_set_e",
    "Verif.Build.C62_set_m"
   ],
   "note": "Exact characterisation for every history; false for supervised steps chosen with set_e/set_m, which are accepted without eta (proved)."
  },
  {
   "property": "C63",
   "status": "proved",
   "theorems": [
    "Verif.Build.C63_seeded",
    "Verif.Build.C63_seeded_defined",
    "Verif.Build.C63_random",
    "Verif.Build.C63_alpha"
   ],
   "note": "Word counts are natural numbers; the choices and draws of the generator are arbitrary."
  },
  {
   "property": "C64",
   "status": "partial",
   "theorems": [
    "Verif.Build.C64_independent_partial",
    "Verif.Build.C64_params_partial",
    "Verif.Build.C64_model_copied",
    "Verif.Build.C64_copied_values",
    "Verif.Build.C64_same_builder",
    "Verif.Build.C64_builder_reused",
    "Verif.Build.C64_events",
    "Verif.Build.C64_train_other"
   ],
   "note": "False: LDAs built from one builder share parameters, steps and event routing (proved for all histories and with a concrete witness). True for different builders and for models passed to initialize_*_from_model."
  },
  {
   "property": "C65",
   "status": "proved",
   "theorems": [
    "Verif.Apps.C65_snapshots",
    "Verif.Apps.C65_file",
    "Verif.Apps.C65_names",
    "Verif.Apps.C65_zero"
   ],
   "note": "The files after any history of events, the contents of each and the names, given as a separate specification (decimal value, at least three digits, no superfluous zeros). The counter is an int; more than 2^31-1 epochs are excluded."
  },
  {
   "property": "C66",
   "status": "partial",
   "theorems": [
    "Verif.Apps.C66_close_partial",
    "Verif.Apps.C66_independent",
    "Verif.Apps.C66_integers",
    "Verif.Apps.C66_defined",
    "Verif.Apps.C66_wrong",
    "Verif.Apps.C66_silent",
    "Verif.Apps.C66_overflow"
   ],
   "note": "False: the sum is an int, so each document is truncated and so is the quotient. Proved: the printed number is at least the mean and less than the mean plus two, epochs are independent, whole numbers are exact up to rounding, and when everything is defined. Proved false: -1.5 is printed as -1, documents above -1 print nothing, a large corpus overflows."
  },
  {
   "property": "C67",
   "status": "partial",
   "theorems": [
    "Verif.Apps.C67_fails",
    "Verif.Apps.C67_ignored",
    "Verif.Apps.C67_calls_partial"
   ],
   "note": "False: the program reads the value of --continue instead, which is not given, so it always stops with an exception. The calls that follow would be right."
  },
  {
   "property": "C68",
   "status": "partial",
   "theorems": [
    "Verif.EStep.C68_reported_elbo_partial",
    "Verif.EStep.C68_gap",
    "Verif.EStep.C68_guard",
    "Verif.EStep.C68_repeated_word"
   ],
   "note": "False when a word occurs more than once: two terms count it once (exact difference and witness proved)."
  },
  {
   "property": "C69",
   "status": "proved",
   "theorems": [
    "Verif.EStep.C69_phi_maximises"
   ],
   "note": "Competitors must vanish where beta does; elsewhere the bound is minus infinity."
  },
  {
   "property": "C70",
   "status": "partial",
   "theorems": [
    "Verif.Events.C70_simple_no_ub_partial",
    "Verif.Events.C70_simple_each_once",
    "Verif.Events.C70_self_removal_ub",
    "Verif.Events.C70_threadsafe_unaffected"
   ],
   "note": "False for EventDispatcher when a listener removes itself (witness proved); holds otherwise and for the thread-safe dispatchers."
  },
  {
   "property": "C71",
   "status": "partial",
   "theorems": [
    "Verif.Pool.C71_no_write_during_e_step_partial",
    "Verif.Pool.C71_online_race"
   ],
   "note": "Proved for M steps whose doc_m_step leaves the model alone; false for the online M step."
  },
  {
   "property": "C72",
   "status": "partial",
   "theorems": [
    "Verif.Entry.C72_fit_partial",
    "Verif.Entry.C72_transform_partial",
    "Verif.Entry.C72_undefined"
   ],
   "note": "False: every E step but the unsupervised one casts the document to a ClassificationDocument (proved undefined). Exact characterisation for all corpora: defined iff the steps look at no label."
  },
  {
   "property": "C73",
   "status": "partial",
   "theorems": [
    "Verif.Numpy.C73_big_endian_host_loses",
    "Verif.Numpy.C73_zero_partial"
   ],
   "note": "False: exactly the matrices whose bytes are all zero survive; the negation is proved for every other matrix."
  },
  {
   "property": "C74",
   "status": "partial",
   "theorems": [
    "Verif.Numpy.C74_magic_ignored",
    "Verif.Numpy.C74_wrong_magic_accepted",
    "Verif.Numpy.C74_version_partial"
   ],
   "note": "False: the magic string is never compared; the first six bytes have no influence at all. Only the version byte is looked at."
  },
  {
   "property": "C75",
   "status": "partial",
   "theorems": [
    "Verif.EStep.C75_supervised_partial",
    "Verif.EStep.C75_uninitialised",
    "Verif.EStep.C40_likelihood_undefined"
   ],
   "note": "False when the loop stops before the first sweep, and for empty documents (proved)."
  },
  {
   "property": "C76",
   "status": "proved",
   "theorems": [
    "Verif.EStep.C76_fast",
    "Verif.EStep.C76_supervised",
    "Verif.EStep.C76_fast_value"
   ],
   "note": ""
  },
  {
   "property": "C77",
   "status": "partial",
   "theorems": [
    "Verif.Optim.C77_constant",
    "Verif.Optim.C77_armijo_partial",
    "Verif.Optim.C77_armijo_not_descent"
   ],
   "note": "False for the Armijo search along a direction that is not one of descent (witness proved)."
  },
  {
   "property": "C78",
   "status": "partial",
   "theorems": [
    "Verif.Optim.C78_callback_partial",
    "Verif.Optim.C78_first_norm",
    "Verif.Optim.C78_stale_norm"
   ],
   "note": "The norm is of uninitialised memory in the first call and one step old afterwards (proved); value and count are right."
  },
  {
   "property": "C79",
   "status": "proved",
   "theorems": [
    "Verif.Optim.C79_minimum",
    "Verif.Optim.C79_convex",
    "Verif.Optim.C57_gradient"
   ],
   "note": ""
  },
  {
   "property": "C80",
   "status": "partial",
   "theorems": [
    "Verif.MStep.C80_defined_partial",
    "Verif.MStep.C80_overflow"
   ],
   "note": "False beyond 46340 words: signed overflow (proved)."
  },
  {
   "property": "C81",
   "status": "partial",
   "theorems": [
    "Verif.MStep.C81_fast_partial",
    "Verif.MStep.C81_empty_document",
    "Verif.MStep.C81_empty_defined",
    "Verif.MStep.C81_online"
   ],
   "note": "True of FastSupervisedMStep; false of SupervisedMStep and of the online step (proved)."
  },
  {
   "property": "C82",
   "status": "partial",
   "theorems": [
    "Verif.Build.C82_fits_partial",
    "Verif.Build.C82_reinitialised"
   ],
   "note": "False: topics initialised again after eta are accepted with an eta of the old size (proved)."
  },
  {
   "property": "C83",
   "status": "proved",
   "theorems": [
    "Verif.Apps.C83_progress"
   ],
   "note": "For any history of epochs; the counter is an int."
  },
  {
   "property": "C84",
   "status": "proved",
   "theorems": [
    "Verif.Apps.C84_continue",
    "Verif.Apps.C84_no_file",
    "Verif.Apps.C84_scratch",
    "Verif.Apps.C84_unsupervised_continue",
    "Verif.Apps.C84_unsupervised_scratch",
    "Verif.Apps.C84_transform"
   ],
   "note": "docopt's parsing of the command line is not modelled; the model starts from its values."
  },
  {
   "property": "C85",
   "status": "partial",
   "theorems": [
    "Verif.Entry.C85_undefined",
    "Verif.Entry.C85_documents_partial",
    "Verif.Entry.C85_labelled"
   ],
   "note": "False: the corpus that fit(X, y) builds has undefined behaviour for negative labels (proved). True for documents from a corpus of the user."
  },
  {
   "property": "C86",
   "status": "partial",
   "theorems": [
    "Verif.Entry.C86_combinations_partial",
    "Verif.Entry.C86_undefined"
   ],
   "note": "False: the correspondence M step needs the variational parameters of the correspondence E step (proved). All other pairs are proved defined for any sequence of documents, whenever the E step is defined; the online M step is covered by C52."
  },
  {
   "property": "C87",
   "status": "partial",
   "theorems": [
    "Verif.Train.C87_resume_partial",
    "Verif.Train.C87_constant_weight",
    "Verif.Train.C87_decay",
    "Verif.Train.C87_online"
   ],
   "note": "False for the online M step, which keeps the counts of all earlier documents (proved with a concrete witness), and for the exponentially decaying weight, which starts again (proved). True for every batch M step with every E step that does not count epochs, for all corpora, schedules, shuffles and splits."
  },
  {
   "property": "C88",
   "status": "proved",
   "theorems": [
    "Verif.FastExp.C88_accuracy",
    "Verif.FastExp.C88_large"
   ],
   "note": "Exact arithmetic, with rounding see C132; the digamma function is Mathlib's logarithmic derivative of the Gamma function."
  },
  {
   "property": "C89",
   "status": "proved",
   "theorems": [
    "Verif.EStep.C89_gamma_maximises"
   ],
   "note": "Exact arithmetic; the bound is `elbo` of Props/Likelihood.lean, equations (14) and (15) of Blei 2003."
  },
  {
   "property": "C90",
   "status": "proved",
   "theorems": [
    "Verif.EStep.C90_iteration",
    "Verif.EStep.C90_exact",
    "Verif.EStep.C90_actual",
    "Verif.EStep.C90_finite",
    "Verif.EStep.C90_more_iterations"
   ],
   "note": "Monotone with exact exp and digamma, for single iterations and for whole runs; with fast_exp and digamma as they are the loss per iteration is bounded by M/250 per word, where M >= 1 bounds |digamma(gamma)|."
  },
  {
   "property": "C91",
   "status": "partial",
   "theorems": [
    "Verif.EStep.C91_elbo_le",
    "Verif.EStep.C91_reported_partial",
    "Verif.EStep.C91_repeated_word"
   ],
   "note": "False when a word occurs twice: for two copies of a word that one topic of two knows the reported value exceeds the log-probability by more than 1/3 (proved). True for documents without repeated words and any exp and digamma; the evidence lower bound itself is proved to be one, for all variational parameters."
  },
  {
   "property": "C92",
   "status": "proved",
   "theorems": [
    "Verif.EStep.C92_unsupervised",
    "Verif.EStep.C92_fast",
    "Verif.EStep.C92_supervised",
    "Verif.EStep.C92_multinomial",
    "Verif.EStep.C92_correspondence"
   ],
   "note": "Equality of the whole result, including undefined behaviour, in exact arithmetic."
  },
  {
   "property": "C93",
   "status": "partial",
   "theorems": [
    "Verif.EStep.C93_unsupervised",
    "Verif.EStep.C93_fast",
    "Verif.EStep.C93_multinomial",
    "Verif.EStep.C93_correspondence",
    "Verif.EStep.C93_supervised_partial",
    "Verif.EStep.C93_supervised_depends"
   ],
   "note": "False for the supervised step, which updates gamma from word to word: exchanging two words changes gamma (proved). True for the other four steps, and for the supervised step as long as the words of the document keep their order."
  },
  {
   "property": "C94",
   "status": "proved",
   "theorems": [
    "Verif.EStep.C94_fast",
    "Verif.EStep.C94_correspondence",
    "Verif.EStep.C94_multinomial"
   ],
   "note": "The multinomial step needs the exact exponential, because there the factor that cancels is inside of exp; its threshold for convergence is the likelihood fraction (see C38). The supervised step has no weight and is not covered."
  },
  {
   "property": "C95",
   "status": "proved",
   "theorems": [
    "Verif.Pool.C95_bounded",
    "Verif.Pool.C95_possible",
    "Verif.Pool.C95_orders",
    "Verif.Pool.C95_one_worker"
   ],
   "note": "An equivalence: the orders that occur are exactly these."
  },
  {
   "property": "C96",
   "status": "proved",
   "theorems": [
    "Verif.Rounded.C96_topics",
    "Verif.Rounded.C96_schedules",
    "Verif.Rounded.C96_normalize",
    "Verif.Rounded.C96_gamma"
   ],
   "note": "For any rounding function with relative error u < 1 and any order of the additions inside of Eigen's sums; rounding to p significant bits is proved to be one, with u = 2^-p. Overflow and underflow are left out. One epoch; the E step that gives phi is arbitrary."
  },
  {
   "property": "C97",
   "status": "partial",
   "theorems": [
    "Verif.Rounded.C97_depends",
    "Verif.Rounded.C97_one_worker_partial"
   ],
   "note": "False with two workers: for every precision of at least two bits three documents are given that yield different topics under two schedules that both can occur (proved). True with one worker, for every M step and arithmetic."
  },
  {
   "property": "C98",
   "status": "partial",
   "theorems": [
    "Verif.EStep.C98_sweep_partial",
    "Verif.EStep.C98_more_iterations_partial",
    "Verif.EStep.C98_finite",
    "Verif.EStep.C98_repeated_word"
   ],
   "note": "False when a word is repeated: for a document of three copies of a word one iteration makes the bound worse (proved with exact exp and digamma). True for documents without repeated words, for single sweeps and for whole runs, with exact exp and digamma."
  },
  {
   "property": "C99",
   "status": "partial",
   "theorems": [
    "Verif.EStep.C99_multinomial_partial",
    "Verif.EStep.C99_correspondence_partial",
    "Verif.EStep.C99_multinomial_value",
    "Verif.EStep.C99_correspondence_value",
    "Verif.EStep.C99_prior"
   ],
   "note": "False with several topics: the normaliser of the Dirichlet prior is counted once instead of once per topic (proved: with mu = 2 and two classes the report is too small by (K-1) log 6 / D). The exact formula is proved for documents without repeated words; with repetitions the part of plain LDA deviates as in C68."
  },
  {
   "property": "C100",
   "status": "proved",
   "theorems": [
    "Verif.EStep.C100_iteration",
    "Verif.EStep.C100_more_iterations",
    "Verif.EStep.C100_finite"
   ],
   "note": "With exact exp and digamma. The threshold of the step is the likelihood fraction (see C38), and the statement is about that threshold."
  },
  {
   "property": "C101",
   "status": "partial",
   "theorems": [
    "Verif.EStep.C101_phi_partial",
    "Verif.EStep.C101_iteration_partial",
    "Verif.EStep.C101_more_iterations_partial",
    "Verif.EStep.C101_not_a_choice",
    "Verif.EStep.C101_not_a_choice_repeated",
    "Verif.EStep.C101_exceeds_evidence",
    "Verif.EStep.C101_evidence_partial",
    "Verif.EStep.C101_evidence_run_partial"
   ],
   "note": "False: tau is normalised over the vocabulary, so for a document without repeated words that misses a word it sums to less than one, for one that has all words and a repetition to more (both proved for all models), and the computed bound can exceed the log-probability (proved). True for documents with every word exactly once, where what is computed is also proved to be a lower bound of the log-probability of document and class, as it is for every document if tau is a distribution over its words; the update of phi and gamma improves the bound for every document."
  },
  {
   "property": "C102",
   "status": "partial",
   "theorems": [
    "Verif.MStep.C102_unsupervised",
    "Verif.MStep.C102_multinomial",
    "Verif.MStep.C102_correspondence_partial",
    "Verif.MStep.C102_correspondence_topics"
   ],
   "note": "False for the topics of the correspondence M step, whose word counts are weighted by tau although tau does not weigh the words in the bound (proved with a witness, for any number of iterations of the E step). True for the unsupervised step, for the multinomial step with mu >= 1 and a weight of one, and for the class parameters of the correspondence step."
  },
  {
   "property": "C103",
   "status": "partial",
   "theorems": [
    "Verif.Train.C103_m_step_partial",
    "Verif.Train.C103_decreases"
   ],
   "note": "False: the E step starts anew in every epoch and can end at worse variational parameters (proved with a document of one word and two topics, for any number of iterations and any schedule, with exact exp and digamma). True at the variational parameters of the epoch, for all schedules, shuffles and numbers of workers and any exp and digamma."
  },
  {
   "property": "C104",
   "status": "proved",
   "theorems": [
    "Verif.Pool.C104_moves"
   ],
   "note": "In both directions; the proof needs that no call leaves a document or result queued, whichever thread makes it, because the move constructor drops the queues."
  },
  {
   "property": "C105",
   "status": "proved",
   "theorems": [
    "Verif.Pool.C105_conserved",
    "Verif.Pool.C105_order",
    "Verif.Pool.C105_own_events",
    "Verif.Pool.C105_flushed"
   ],
   "note": "Simulation between a call that finds events queued and one that does not, then the invariants of C01 to C07."
  },
  {
   "property": "C106",
   "status": "partial",
   "theorems": [
    "Verif.Rounded.C106_frequencies_partial",
    "Verif.Rounded.C106_stuck",
    "Verif.Rounded.C106_wrong"
   ],
   "note": "False for more than 2^p documents (p = 24): the count of a class stays at 2^p, so that classes of 2^p and 2^(p+1) documents both get prior 1/2. True, with an exact sum in every order, up to 2^p documents."
  },
  {
   "property": "C107",
   "status": "partial",
   "theorems": [
    "Verif.Pool.C107_conserved",
    "Verif.Pool.C107_extremes",
    "Verif.Pool.C107_one_worker_partial",
    "Verif.Pool.C107_depends",
    "Verif.Pool.C107_number_depends"
   ],
   "note": "False with two workers: which documents report depends on the schedule, and with the generator of libstdc++ and the default seed even how many. True with one worker and for the fractions 0 and 1. For every schedule each number is used exactly once and each document gets its share."
  },
  {
   "property": "C108",
   "status": "partial",
   "theorems": [
    "Verif.EStep.C108_unsupervised_partial",
    "Verif.EStep.C108_fast_partial",
    "Verif.EStep.C108_supervised_partial",
    "Verif.EStep.C108_multinomial_partial",
    "Verif.EStep.C108_correspondence_partial",
    "Verif.EStep.C108_short",
    "Verif.EStep.C108_long"
   ],
   "note": "False: the change compared with the tolerance is the mean absolute change. Proved for all five steps: the rule is the relative one with the tolerance multiplied by the number of topics and divided by the sum of alpha and the number of words. A short document can be returned without a single iteration, a long one is iterated longer than documented."
  },
  {
   "property": "C109",
   "status": "partial",
   "theorems": [
    "Verif.Numpy.C109_scalar",
    "Verif.Numpy.C109_empty",
    "Verif.Numpy.C109_empty_matrix",
    "Verif.Numpy.C109_large",
    "Verif.Numpy.C109_two_dimensions_partial",
    "Verif.Numpy.C109_any_dimensions_partial",
    "Verif.Numpy.C109_silent"
   ],
   "note": "False: arrays without dimensions or without elements are undefined behaviour, arrays of two dimensions with 2^31 elements or more give an exception or undefined behaviour depending on the remainder modulo 2^32, and with three dimensions a file can be taken for a much smaller one. Proved: an array of two dimensions that is loaded has its own shape."
  },
  {
   "property": "C110",
   "status": "partial",
   "theorems": [
    "Verif.Rounded.C110_search_partial",
    "Verif.Rounded.C110_minimize_partial",
    "Verif.Rounded.C110_unchecked",
    "Verif.Rounded.C110_terminates",
    "Verif.Rounded.C110_increases"
   ],
   "note": "False: when the decrease demanded of the first step (of twice the length of the first step documented) is below a quarter of the last place of the value, that step is made without evaluating the objective, which can increase, while the value returned is the old one, so that the M step stops there. Proved: this is the only way in which the objective can increase; and with tau at most 1/2 every search ends, for every function and direction."
  },
  {
   "property": "C111",
   "status": "proved",
   "theorems": [
    "Verif.Optim.C111_m_step",
    "Verif.MStep.C111_fast"
   ],
   "note": "In exact arithmetic (C110 has the rounding). The bounds are explicit: with N documents, penalty L and m = max(1, 1000/999 (L + 2N)), (||eta0 - eta*||^2 + 1000 f(eta0)) m / (2 iterations), and 500 tolerance f(eta') m / L for a penalty above zero; without penalty the square of the excess is bounded by the tolerance. The second is the factor by which the tolerance is weaker than it looks."
  },
  {
   "property": "C112",
   "status": "partial",
   "theorems": [
    "Verif.Pool.C112_safe_partial",
    "Verif.Pool.C112_usable_partial",
    "Verif.Pool.C112_terminates",
    "Verif.Pool.C112_threads_left",
    "Verif.Pool.C112_jobs_left",
    "Verif.Pool.C112_stale_call",
    "Verif.Pool.C112_never_recovers"
   ],
   "note": "False: an exception while documents are processed (a listener, doc_m_step) or when a thread but the first is created leaves joinable threads, so that the destructor and the next call terminate the program; one while documents are queued or when the first thread is created leaves jobs, and then every later call hands results of other documents to the M step, for ever. Proved: an exception before anything is queued, or of the batch M step or a listener of the end of the epoch, leaves an object whose later calls do what they do on a new one."
  },
  {
   "property": "C113",
   "status": "partial",
   "theorems": [
    "Verif.EStep.C113_unsupervised",
    "Verif.EStep.C113_unsupervised_exact",
    "Verif.EStep.C113_unsupervised_actual",
    "Verif.EStep.C113_multinomial_exact",
    "Verif.EStep.C113_supervised_exact",
    "Verif.EStep.C113_fast_never_settles",
    "Verif.EStep.C113_fast_negation"
   ],
   "note": "False for the fast supervised step: with two topics, two classes and a document of one word it alternates for ever between two results that are far apart, whatever the (small) tolerance, so the result depends on whether the limit of the iterations is odd. Proved: for the unsupervised step with any functions for which exp(psi(x)) grows with x, in particular the exact ones and fast_exp and digamma as they are (prior at least 1/50, at most 10^40 words); for the multinomial step with exact functions, where compute_likelihood is the tolerance (C38); and for the supervised step with exact functions, for documents whose words are known, repeated ones included, where the number of iterations also depends on the range of the classification parameters. Not treated: the correspondence step, and the multinomial and the supervised step with fast_exp."
  },
  {
   "property": "C114",
   "status": "partial",
   "theorems": [
    "Verif.Corpus.C114_every_order_once",
    "Verif.Corpus.C114_position",
    "Verif.Corpus.C114_fit_partial",
    "Verif.Corpus.C114_partial_fit_same_order"
   ],
   "note": "False for partial_fit(X, y): every call makes a corpus of its own with the default seed, so all calls go through the documents in the same order, the one of the first epoch of fit; the seed of the LDA has no influence. Proved: a shuffle leads to every order for exactly one choice of the numbers, hence the documented probability, and the epochs of fit have every sequence of orders for exactly one choice. That the numbers of the generator are equally likely is assumed, and so is the way in which std::shuffle uses them (Fisher-Yates)."
  },
  {
   "property": "C115",
   "status": "partial",
   "theorems": [
    "Verif.EStep.C115_unsupervised",
    "Verif.EStep.C115_fast",
    "Verif.EStep.C115_supervised",
    "Verif.EStep.C115_multinomial",
    "Verif.EStep.C115_correspondence",
    "Verif.Decision.C115_scores",
    "Verif.Decision.C115_predict",
    "Verif.Decision.C115_ties_negation",
    "Verif.MStep.C115_fast_m_partial",
    "Verif.MStep.C115_supervised_m_partial",
    "Verif.MStep.C115_multinomial_m",
    "Verif.MStep.C115_online_partial",
    "Verif.MStep.C115_online_negation",
    "Verif.Train.C115_fit_fast_partial",
    "Verif.Train.C115_fit_semi_partial",
    "Verif.Train.C115_fit_supervised_partial",
    "Verif.Train.C115_fit_multinomial",
    "Verif.Train.C115_fit_correspondence"
   ],
   "note": "False for the supervised steps when a class has no document in the corpus or in a minibatch: the weight of a class depends on the highest number among the labels, so the same document with label 1 in place of 0 moves eta half as far (C115_online_negation); and when two classes have the same score predict takes the one with the smaller number (C115_ties_negation). Proved: all E steps, the multinomial and correspondence models without a condition, the other M steps and all of training when the highest number in use is the same in both numberings, which it is if every class has a document, and predictions when one class is best."
  },
  {
   "property": "C116",
   "status": "partial",
   "theorems": [
    "Verif.MStep.C116_fast_m",
    "Verif.MStep.C116_supervised_m",
    "Verif.MStep.C116_multinomial_m",
    "Verif.MStep.C116_online",
    "Verif.Train.C116_fit_unsupervised",
    "Verif.Train.C116_fit_fast",
    "Verif.Train.C116_fit_semi",
    "Verif.Train.C116_fit_supervised",
    "Verif.Train.C116_fit_multinomial",
    "Verif.Train.C116_fit_correspondence",
    "Verif.Train.C116_lda",
    "Verif.Train.C116_flda",
    "Verif.Train.C116_slda_partial",
    "Verif.Train.C116_multinomial",
    "Verif.Train.C116_correspondence",
    "Verif.Decision.C116_scores"
   ],
   "note": "False for the vocabulary with the supervised E step, whose fixed point visits the words in order (C93_supervised_depends). Proved for every M step and for training with any E step that commutes with the renumbering; the E steps of LDA, fLDA, multinomial and correspondence LDA do, and the supervised one does for the topics (C116_slda_partial). The scores of decision_function are the same numbers, finite or not."
  },
  {
   "property": "C117",
   "status": "partial",
   "theorems": [
    "Verif.Decision.C117_predict_partial",
    "Verif.Decision.C117_guide_partial",
    "Verif.Decision.C117_margin_partial",
    "Verif.Decision.C117_negation"
   ],
   "note": "False: the code subtracts the prior alpha from the variational parameters, the formula of the guide does not, and for short documents they choose different classes (C117_negation, with the expectation step and its defaults). Proved: exactly which class is predicted; the formula of the guide is right if the prior contributes the same to every class, and for each document for which its best class is ahead by more than the prior's contributions differ."
  },
  {
   "property": "C118",
   "status": "proved",
   "theorems": [
    "Verif.Train.C118_lda",
    "Verif.Train.C118_flda",
    "Verif.Train.C118_semi",
    "Verif.Train.C118_slda",
    "Verif.Train.C118_multinomial",
    "Verif.Train.C118_correspondence",
    "Verif.Train.C118_fit_unsupervised",
    "Verif.Train.C118_fit_fast",
    "Verif.Train.C118_fit_semi",
    "Verif.Train.C118_fit_supervised",
    "Verif.Train.C118_fit_multinomial",
    "Verif.Train.C118_fit_correspondence",
    "Verif.Train.C118_needs_iteration"
   ],
   "note": "Proved for the five models and the semi-supervised one with their own expectation steps, and for every maximisation step with any expectation step that gives a word only to topics that know it. The supervised step needs documents of at most 46340 words (C80) and known words. In exact arithmetic. C118_needs_iteration shows that the condition on the iterations is needed: with none, every topic takes up every word."
  },
  {
   "property": "C119",
   "status": "partial",
   "theorems": [
    "Verif.Races.C119_no_race",
    "Verif.Races.C119_races_partial",
    "Verif.Races.C119_online_race"
   ],
   "note": "Holds for all batch maximisation steps (C119_no_race), where race and happens-before are those of the C++ standard. False with FastOnlineSupervisedMStep: the calling thread updates the model parameters while workers read them (C119_online_race); that is the only location (C119_races_partial). Listeners may call back into the dispatcher (add, remove, dispatch), and other threads may do the same at any time. Assumes that no worker has the thread identifier the dispatcher stores (C120), and that a constructing thread that is not the calling one does not dispatch during a call: it would run the listeners itself. The accesses of Eigen, of the standard library and of the listeners of the user to globals of their own are not modelled."
  },
  {
   "property": "C120",
   "status": "partial",
   "theorems": [
    "Verif.Threads.C120_listeners_not_on_workers_partial",
    "Verif.Threads.C120_fresh_identifiers_partial",
    "Verif.Threads.C120_one_thread",
    "Verif.Threads.C120_caller_runs_listeners",
    "Verif.Threads.C120_reused_identifier"
   ],
   "note": "Holds while the thread that constructed the object has not ended, and when the system never gives an identifier twice. False otherwise: the dispatcher stores the identifier of the constructing thread only, a worker that is given the same identifier later runs the listeners itself, at the same time as the caller (C120_reused_identifier). Also events/Events.hpp says that process_events can only be called on the creating thread; any thread that trains does it (C120_caller_runs_listeners)."
  },
  {
   "property": "C121",
   "status": "proved",
   "theorems": [
    "Verif.Races.C121_never_stuck",
    "Verif.Races.C121_bounded",
    "Verif.Races.C121_can_complete",
    "Verif.Races.C121_no_worker"
   ],
   "note": "At the level of single lock operations, signals and waits: some thread can always go on (C121_never_stuck) and the number of steps is bounded for every scheduler, but for waits that end without reason, each of which may add a few steps (C121_bounded). With documents and no worker the call hangs (C121_no_worker, as in C05). A listener that dispatches a new event at every event never stops: the callbacks are assumed to be finitely many. std::lock is modelled as two locks in one order; exceptions are not thrown here (see C112)."
  },
  {
   "property": "C122",
   "status": "partial",
   "theorems": [
    "Verif.Fine.C122_same_outcomes_partial",
    "Verif.Fine.C122_large_steps_exist",
    "Verif.Fine.C122_one_model_partial",
    "Verif.Fine.C122_sequential_partial",
    "Verif.Fine.C122_online_mixes_models"
   ],
   "note": "False for the online M step, which writes the model while workers read it: a document can be used with a result that comes from no single model (C122_online_mixes_models). Proved for the batch M steps, by simulation in both directions with the machine of C01-C08, so that those claims hold for the small steps as well."
  },
  {
   "property": "C123",
   "status": "partial",
   "theorems": [
    "Verif.Disk.C123_other_files",
    "Verif.Disk.C123_no_mixture",
    "Verif.Disk.C123_old_model_kept",
    "Verif.Disk.C123_snapshots_partial",
    "Verif.Disk.C123_complete_partial",
    "Verif.Disk.C123_load_partial",
    "Verif.Disk.C123_cut_loads",
    "Verif.Disk.C123_old_model_lost"
   ],
   "note": "False: saving empties the file first, so that an interruption can lose the old model (C123_old_model_lost), and a file cut inside its last array is loaded without an error with zeros at the end of eta; a full disk has the same effect and is not reported (C123_cut_loads). Proved: nothing else can go wrong. Until fit returns the old model is there, finished snapshots stay, no file mixes two models, and what is loaded from a cut file has the alpha and beta of the new model and a beginning of its eta."
  },
  {
   "property": "C124",
   "status": "partial",
   "theorems": [
    "Verif.Programs.C124_output_partial",
    "Verif.Programs.C124_same",
    "Verif.Programs.C124_returns",
    "Verif.Programs.C124_unreadable",
    "Verif.Programs.C124_no_workers",
    "Verif.Programs.C124_labels_wanted",
    "Verif.Programs.C124_shapes"
   ],
   "note": "False: documents over another vocabulary than the model's are not refused (C124_shapes), slda and fslda refuse a file with documents only, though transform does not use labels (C124_labels_wanted), and with --workers=0 the program does not end (C124_no_workers). Proved: in all other cases with at least one worker the output is the array that the statement describes, bit for bit the same for every number of workers and schedule."
  },
  {
   "property": "C125",
   "status": "partial",
   "theorems": [
    "Verif.Programs.C125_files_partial",
    "Verif.Programs.C125_lda_partial",
    "Verif.Programs.C125_same",
    "Verif.Programs.C125_programs",
    "Verif.Programs.C125_returns",
    "Verif.Programs.C125_unreadable",
    "Verif.Programs.C125_no_workers"
   ],
   "note": "False: with --workers=0 the training does not end (C125_no_workers), and what the disk refuses goes unnoticed (C123). Proved for exact sums, on a disk that grants everything: with at least one worker the files are those of the sequential loop, undefined behaviour of a maximisation occurs under all schedules or none, and for lda train it does not occur. In floating point the order of the sums matters (C08, C97)."
  },
  {
   "property": "C126",
   "status": "partial",
   "theorems": [
    "Verif.Counts.C126_words_partial",
    "Verif.Counts.C126_used",
    "Verif.Counts.C126_too_many",
    "Verif.Counts.C126_undefined",
    "Verif.Counts.C126_misused",
    "Verif.Counts.C126_order",
    "Verif.Counts.C126_negative"
   ],
   "note": "False for documents of more than 2^31-1 words: no order gives their number (C126_too_many), the additions of C++ are undefined behaviour in every order (C126_undefined), and if they wrap the number and with it the shares of the words are negative (C126_misused). Counts below zero are not refused: the sum may then depend on the order (C126_order), and a document with a total of -1 makes digamma divide by zero for every topic (C126_negative). Proved: for all documents whose counts add up to an int every order and grouping gives the sum."
  },
  {
   "property": "C127",
   "status": "partial",
   "theorems": [
    "Verif.Limits.C127_pass_partial",
    "Verif.Limits.C127_double_partial",
    "Verif.Limits.C127_float_partial",
    "Verif.Limits.C127_double_prior_partial",
    "Verif.Limits.C127_float_prior_partial",
    "Verif.Limits.C127_double_default_partial",
    "Verif.Limits.C127_float_default_partial",
    "Verif.Limits.C127_lost_double",
    "Verif.Limits.C127_lost_float"
   ],
   "note": "False: with the prior 1/K of the builder and K at least 715 times (with float 92 times) the number of words plus one, the exponentials of all topics underflow to zero, normalize_cols skips the zero columns, and from the first pass on the result is the prior, whatever the model: all words are lost without a message (C127_lost_double, C127_lost_float; e.g. documents of one word and 1430 topics, or with float of four words and 500 topics). Proved: a pass accounts for all words unless all weights of a word underflow, and none do if the prior is at least 1/97 (float: 1/29) and every word has probability at least 2^-800 (2^-85) in some topic, or if the prior is at least 1/697 (1/84) and the probability at least 2^-63 (2^-23), or with the prior 1/K of the builder for documents of any length up to 1392 topics (167), if every entry of beta is zero or at least 2^-63 (2^-23) and every word has some topic; so for documents of one word the limit is between 1392 and 1430 topics (167 and 184). For longer documents the numbers of topics in between are not treated."
  },
  {
   "property": "C128",
   "status": "partial",
   "theorems": [
    "Verif.View.C128_safe_partial",
    "Verif.View.C128_fit_partial",
    "Verif.View.C128_document",
    "Verif.View.C128_priors",
    "Verif.View.C128_orphan",
    "Verif.View.C128_leftover",
    "Verif.View.C128_grown"
   ],
   "note": "False in three ways. The pointer to its corpus that a document returns is a shared_ptr with a deleter that does nothing: it does not keep the corpus, and every use is undefined once nobody else has the corpus (C128_orphan). The corpora refer to the caller's matrix: after a call that was left by an exception the queue still holds jobs, and if that matrix ends the next call is undefined whatever its own corpus (C128_leftover). size() follows the matrix but the index vector does not: with more columns than at construction training is undefined (C128_grown). Besides, the class priors are those of the labels at construction, not of the present ones (C128_priors). Proved: documents keep their words and class in every history (C128_document); for a caller who lets matrices and labels outlive the corpora and the jobs that refer to them, keeps their sizes and uses the corpus of a document only while somebody owns it, no history is undefined (C128_safe_partial), and training gets the present documents, each once (C128_fit_partial)."
  },
  {
   "property": "C129",
   "status": "partial",
   "theorems": [
    "Verif.Overflow.C129_double_partial",
    "Verif.Overflow.C129_float_partial",
    "Verif.Overflow.C129_over_double",
    "Verif.Overflow.C129_over_float",
    "Verif.Overflow.C129_under_double",
    "Verif.Overflow.C129_under_float",
    "Verif.Overflow.C129_ratio_double",
    "Verif.Overflow.C129_ratio_float"
   ],
   "note": "False: the softmax of the class scores is computed without subtracting their maximum. If all the weights of one class are 900 or more (110 with float) it is infinity divided by infinity, and if all weights of all classes are -900 (-110) or less it is zero divided by zero; NaN then reaches fast_exp, whose conversion to an index is undefined, in the first pass and for every document with words (C129_over_*, C129_under_*). Small weights do not help, since they are divided by their maximum: with weights a for the class of the document and -1 for the other, 2^-30 <= a <= 2^-20, phi is NaN after the first pass and the second one is undefined (C129_ratio_*). Proved: weights of absolute value at most 500 (50 with float) whose ratio to their maximum times the weight of the classes is at most 250 (16) keep all numbers finite and all passes defined (C129_double_partial, C129_float_partial). What lies between these bounds is not treated."
  },
  {
   "property": "C130",
   "status": "partial",
   "theorems": [
    "Verif.EStep.C130_unsupervised_partial",
    "Verif.EStep.C130_correspondence_partial",
    "Verif.EStep.C130_multinomial_partial",
    "Verif.Overflow.C130_supervised_undefined",
    "Verif.Overflow.C130_supervised_first",
    "Verif.EStep.C130_fast_report",
    "Verif.EStep.C130_tolerance",
    "Verif.EStep.C130_fast_differs",
    "Verif.EStep.C130_asymmetric"
   ],
   "note": "False: the supervised step divides by the sum of the products of an unknown word, which is zero, and NaN reaches fast_exp, whose conversion to an index is undefined. Every run with two or more iterations that do not stop at the first test is undefined as soon as there is one unknown word, whatever the model, and a run with one iteration if another word follows it (C130_supervised_undefined, C130_supervised_first). This happens when the supervised step continues from topics learnt on other documents. The fast step stays finite, but reports NaN as the likelihood (C130_fast_report), and averages over all words of the document, so that unknown words change the topics of the known ones (C130_fast_differs). The unsupervised step starts from the number of all words, so that with a positive tolerance the number of iterations may differ (C130_tolerance), and with a prior that differs between the topics its first iteration does (C130_asymmetric). Proved: with a symmetric prior and no early stop the unsupervised, correspondence and multinomial steps return what they return for the document without the unknown words, the unsupervised one also the same likelihood. The multinomial step with fast_exp instead of the exponential is not treated. Definedness of these steps is C35."
  },
  {
   "property": "C131",
   "status": "partial",
   "theorems": [
    "Verif.Optim.C131_descends_partial",
    "Verif.Optim.C131_ends_partial",
    "Verif.Optim.C131_stops",
    "Verif.Optim.C131_overflow",
    "Verif.Optim.C131_underflow",
    "Verif.Optim.C131_nan"
   ],
   "note": "False: the line search stops when the new value is not greater than the bound, and NaN is not. With a penalty of 1000, two documents and weights of absolute value one it accepts a step to NaN, the M step ends there and the documented objective has grown (C131_nan). If the objective is not finite at the start the M step leaves the weights as they are and reports success with an infinite value, plus infinity (better than everything) if all weights are too small (C131_stops, C131_overflow, C131_underflow). Proved for penalties up to one (the default is 0.01) and weights whose sum over the classes is not negative in any topic, such as the initial zeros: the sum stays so, hence some exponential is at least one, values are finite or plus infinity and never NaN, the search rejects the infinite ones, and the M step ends. Only the range of the exponential is limited here, the other operations are exact; the second order objective is not treated."
  },
  {
   "property": "C132",
   "status": "proved",
   "theorems": [
    "Verif.Primitives.C132_digamma_ends",
    "Verif.Primitives.C132_digamma",
    "Verif.Primitives.C132_digamma_returns",
    "Verif.Primitives.C132_assumption",
    "Verif.Primitives.C132_fast_exp",
    "Verif.Primitives.C132_fast_exp_outside",
    "Verif.Primitives.C132_fast_exp_returns",
    "Verif.Primitives.C132_double",
    "Verif.Primitives.close_fl",
    "Verif.Primitives.double_fl",
    "Verif.Primitives.single_fl",
    "Verif.Primitives.single_fl_double"
   ],
   "note": "The roundings are arbitrary numbers within the error of the format, so the same result holds for fused or wider operations; that rounding to nearest in float, double and first double then float is within it is proved (double_fl, single_fl, single_fl_double). The library's log and exp are assumed to err by at most one unit in the last place. Overflow is not modelled: the bounds are for results within the range of the format. C132_assumption is what C127, C129 and C130 assume of digamma."
  },
  {
   "property": "C133",
   "status": "partial",
   "theorems": [
    "Verif.Pool.C133_answers_partial",
    "Verif.Pool.C133_training_partial",
    "Verif.Pool.C133_late_partial",
    "Verif.Pool.C133_returns_partial",
    "Verif.Pool.C133_bounded_partial",
    "Verif.Pool.C133_terminates",
    "Verif.Pool.C133_nested_twice",
    "Verif.Pool.C133_dead_only",
    "Verif.Pool.C133_other_thread",
    "Verif.Pool.C133_continued_partial",
    "Verif.Pool.C133_seen",
    "Verif.Pool.C133_nest"
   ],
   "note": "False while documents are processed: a call made by a listener of an ExpectationProgressEvent, or of the MaximizationProgressEvent of an online M step, or of an event of a nested call, assigns to threads that are joinable and std::terminate is called, always; so does a call by another thread between the creation of the first worker and the last join. True for the events of m_step and of the end of an epoch: the nested call is answered correctly and the outer call is an execution of the call without it. A nested call of partial_fit from the event that ends an epoch trains as if it had been made after the outer one, at any depth, but listeners called later get that event with the parameters of the later epoch (C133_continued_partial, C133_seen); from an event of m_step it is not treated. Which documents report their likelihood later does change, as a nested call takes random numbers of the E step (C107)."
  },
  {
   "property": "C134",
   "status": "partial",
   "theorems": [
    "Verif.EStep.C134_bound",
    "Verif.EStep.C134_fast_partial",
    "Verif.EStep.C134_supervised_partial",
    "Verif.EStep.C134_repeated_word",
    "Verif.EStep.C134_repeated_word_supervised"
   ],
   "note": "False when a word occurs twice: for two copies of a word that one topic of two knows, and parameters of the classes that are still zero, both steps report more than the log-probability plus 3/10 (proved). True for documents without repeated words and any exp and digamma functions, with an error for exp that is a parameter (`fast_close` bounds it for fast_exp). The bound that the supervised step improves (C98) is proved to be a lower bound for every document, repeated words included: the expected normaliser with equal topics for equal words is at least the one with independent topics."
  },
  {
   "property": "C135",
   "status": "partial",
   "theorems": [
    "Verif.EStep.C135_bound_partial",
    "Verif.EStep.C135_reported_partial",
    "Verif.EStep.C135_one_word",
    "Verif.EStep.C135_prior_partial",
    "Verif.EStep.C135_exceeds",
    "Verif.EStep.C135_positive"
   ],
   "note": "False: what the model puts in the place of the probability of the class, the product of the votes of the words divided by powers of the prior, is no probability. With one topic, one word and two classes of prior 1/2 a document of three words has probability one, but the value reported exceeds the share by more than 1, and the excess grows without limit with the length of the document (proved, for any exp and digamma). True: the bound for all documents, and the report for documents without repeated words, with the expectation of that product in the place of the probability; it is a probability for documents of one word, and at most one if no topic favours the class over its prior, where the report is at most the log-probability of the words."
  },
  {
   "property": "C136",
   "status": "partial",
   "theorems": [
    "Verif.Overflow.C136_double_partial",
    "Verif.Overflow.C136_float_partial",
    "Verif.Overflow.C136_over_double",
    "Verif.Overflow.C136_over_float",
    "Verif.Overflow.C136_under_double",
    "Verif.Overflow.C136_under_float"
   ],
   "note": "False: the exponentials of the weights times the share of a word in the document are not guarded. One weight of 711 (float: 90) in relation to that share makes a product infinite, then the normalised h infinity times zero, and NaN reaches fast_exp, whose conversion to an index is undefined; a class whose weights are all that negative makes the product zero and divides zero by zero. This holds for every device, prior, tolerance that does not stop at the first test, class of the document and rest of the model (C136_over_*, C136_under_*). Proved for moderate models: weights of at most 8, and at most 5/2 (float: 3/2) in relation to the share of the most frequent word, priors of at least 1/200 (1/20), no word of the document with probability below 2^-60 (2^-23) in all topics, and a number of updates for which the errors of gamma, which accumulate because it is updated by differences, stay below half the prior; the bound of the accumulated error is part of the statement. Not treated: weights in between. Documents without words are C40 and C75, words that no topic knows C130."
  },
  {
   "property": "C137",
   "status": "partial",
   "theorems": [
    "Verif.Overflow.C137_multinomial_double_partial",
    "Verif.Overflow.C137_multinomial_float_partial",
    "Verif.Overflow.C137_correspondence_double_partial",
    "Verif.Overflow.C137_correspondence_float_partial",
    "Verif.Overflow.C137_weightless",
    "Verif.Overflow.C137_multinomial_negative",
    "Verif.Overflow.C137_correspondence_negative",
    "Verif.Overflow.C137_correspondence_undefined",
    "Verif.Overflow.C137_lost",
    "Verif.Overflow.C137_lost_double",
    "Verif.Overflow.C137_lost_float"
   ],
   "note": "False: the logarithm of the probability of the class is not guarded. If a topic does not produce the class (probability zero, as for mu = 1, a class without documents or parameters of a logistic model), the correspondence step multiplies zero by minus infinity and passes NaN to fast_exp, whose conversion to an index is undefined; so does the multinomial step with eta_weight = 0, which is meant to ignore the class, and both steps for negative weights. If no topic produces the class, or if eta_weight times the logarithm is below -1200 (float: -160) for all topics, every exponential of the multinomial step is zero, every word is lost and gamma is the prior, whatever the document. Proved otherwise: the multinomial step for priors of at least 1/200 (1/16), eta_weight > 0, eta_weight*(1 - log eta) of at most 450 (24) for the topics that produce the class (zeros are allowed), and for each word of the document a topic that produces the class and the word with probability at least 2^-60 (2^-23); the correspondence step for priors of at least 1/50 (1/16), probabilities of the class of at least 2^-62 and of each word of the document of at least 2^-900 (2^-50) in some topic. Not treated: weights in between."
  },
  {
   "property": "C138",
   "status": "partial",
   "theorems": [
    "Verif.Overflow.C138_unsupervised_double_partial",
    "Verif.Overflow.C138_unsupervised_float_partial",
    "Verif.Overflow.C138_multinomial_double_partial",
    "Verif.Overflow.C138_multinomial_float_partial",
    "Verif.Overflow.C138_correspondence_double_partial",
    "Verif.Overflow.C138_correspondence_float_partial",
    "Verif.Overflow.C138_multinomial_needs",
    "Verif.Overflow.C138_correspondence_needs",
    "Verif.Overflow.C138_multinomial_unseen",
    "Verif.Overflow.C138_correspondence_unseen"
   ],
   "note": "False for the two steps with classes: the logarithm of eta is guarded nowhere and the prior term sums it over all topics and classes, so one zero or negative entry of eta, of any class, makes the report of every document infinite or NaN, and so does a zero prior of the class of the document. Without smoothing (mu = 1, where the M step leaves eta zero for classes without documents) the report is NaN for every document, which is what is dispatched for documents whose likelihood is not computed. Proved otherwise: the unsupervised step and its report for priors of at least 1/512 (float: 1/84), probabilities of each word of the document of at least 2^-60 (2^-23) in some topic and, in float, at most 2^24 entries of beta; the reports of the other two for the models of C137 with all entries of eta and the prior of the class in [2^-1074, 1], mu in [2^-20, 2^20], at most 2^16 classes and, in float, at most 2^24 entries of beta and of eta. The reports are at most 2^105 or 2^112 in absolute value. Not treated: smaller priors and probabilities."
  },
  {
   "property": "C139",
   "status": "partial",
   "theorems": [
    "Verif.Overflow.C139_double_partial",
    "Verif.Overflow.C139_float_partial",
    "Verif.Overflow.C139_unused"
   ],
   "note": "False: the M step divides the rows of its sums by their totals without a comparison with zero, so a topic that knows no word of the corpus is NaN after the first epoch, and in the next one fast_exp indexes its table with NaN, which is undefined, for every document with words (C139_unused). Proved for priors of at least 1/50 (float: 1/16), a start where each word of the corpus has a topic with at least 2^-100 and each topic a word of the corpus with at least 2^-21, at most 2^20 documents, topics and words and documents of at most 2^31 words (float: at most 2^24 entries of beta): after any number of epochs the topics sum to one up to (3V+5) units of rounding, each word of the corpus has a topic with at least 2^-100, all other words have probability zero, and the steps and reports of all documents are finite. Not treated: smaller priors and probabilities."
  },
  {
   "property": "C140",
   "status": "partial",
   "theorems": [
    "Verif.Overflow.C140_multinomial_double_partial",
    "Verif.Overflow.C140_correspondence_double_partial",
    "Verif.Overflow.C140_correspondence_unsmoothed",
    "Verif.Overflow.C140_multinomial_unsmoothed"
   ],
   "note": "False without smoothing (mu = 1): a topic that has no word of the documents of a class gets a weight of zero for it in the first epoch; in the second one the logarithm is minus infinity, zero times minus infinity is NaN and fast_exp indexes its table with NaN, which is undefined, in the correspondence step (C140_correspondence_unsmoothed); the multinomial step reports NaN for every document from then on (C140_multinomial_unsmoothed). Proved in double for smoothing of at least 1 + 2^-10 (correspondence: 1 + 2^-8), priors of at least 1/100 (1/50), class weights eta_weight of at most 7, a start with class weights of at least 2^-81 (2^-62) where each word of the corpus has a topic with at least 2^-95 (2^-280), at most 2^20 documents, topics and words, 2^16 (2^10) classes and documents of at most 2^31 (one to 2^20) words. Not treated: float, and values in between."
  },
  {
   "property": "C141",
   "status": "partial",
   "theorems": [
    "Verif.MStep.C141_bounded_partial",
    "Verif.MStep.C141_short_steps_partial",
    "Verif.MStep.C141_diverges",
    "Verif.MStep.C141_diverges_from_zeros",
    "Verif.MStep.C141_no_penalty",
    "Verif.MStep.C141_iff"
   ],
   "note": "False if learning rate times penalty is at least 2 (1 + momentum): eta grows beyond every bound from zeros for documents of one class (C141_diverges_from_zeros) and, above that, for all documents if the entries of some topic do not add up to zero at the start (C141_diverges); the penalty drives the swing, so that more regularisation makes it worse. Proved for every positive product below that (C141_bounded_partial), and with the bound minibatch / penalty, which holds for the scores too, if it is at most (1 - sqrt(momentum))^2, as with the defaults (C141_short_steps_partial). Without a penalty there is no bound (C141_no_penalty), so the condition is exact for two classes and minibatches of one document (C141_iff). Over the real numbers."
  },
  {
   "property": "C142",
   "status": "partial",
   "theorems": [
    "Verif.Overflow.C142_nonneg",
    "Verif.Overflow.C142_special",
    "Verif.Overflow.C142_negative_partial",
    "Verif.Overflow.C142_iff",
    "Verif.Overflow.C142_ninf",
    "Verif.Overflow.C142_fast",
    "Verif.Overflow.C142_unsupervised",
    "Verif.Overflow.C142_supervised",
    "Verif.Overflow.C142_negative_prior"
   ],
   "note": "False for numbers below -2^prec - 2 (prec is 24 for float, 53 for double) and for minus infinity: adding one does not change them or stops changing them, and the loop runs forever (C142_iff gives the exact condition, C142_ninf). Hence a document is never finished if alpha is at most -2^(prec+2) (C142_negative_prior). Proved for all other numbers: within 2|x| + 15 rounds (C142_negative_partial), at most seven if not negative (C142_nonneg) and none for NaN and infinity (C142_special). With alpha and beta not negative all calls of the two steps take at most seven rounds (C142_fast, C142_unsupervised); the supervised step subtracts from gamma, and its calls take at most 2 i N + 15 rounds in pass i over a document of N words, as long as i N is at most 2^prec (C142_supervised)."
  },
  {
   "property": "C143",
   "status": "proved",
   "theorems": [
    "Verif.Train.C143_lda",
    "Verif.Train.C143_flda",
    "Verif.Train.C143_slda",
    "Verif.Train.C143_multinomial",
    "Verif.Train.C143_correspondence",
    "Verif.Train.C143_online",
    "Verif.Overflow.C143_lda_numbers",
    "Verif.Overflow.C143_multinomial_numbers",
    "Verif.Overflow.C143_correspondence_numbers"
   ],
   "note": "From C116 with the two topics swapped: training mirrors itself. With the numbers of the machine by induction, under the assumption that the logarithm, digamma and sums give equal results for equal arguments (Eigen may compute some elements of an array with vector instructions and others without)."
  },
  {
   "property": "C144",
   "status": "partial",
   "theorems": [
    "Verif.Train.C144_lda",
    "Verif.Train.C144_multinomial_partial",
    "Verif.Train.C144_correspondence_partial",
    "Verif.Train.C144_smoothing",
    "Verif.Train.C144_descent",
    "Verif.Optim.C144_objective"
   ],
   "note": "False for the class parameters with smoothing: the number added to each count does not grow with the corpus, so r copies trained with mu' equal one copy trained with mu exactly when mu' - 1 = r (mu - 1), and with the same mu > 1 a concrete corpus gives another classifier. The classifiers trained by gradient: with the penalty multiplied by r as well, the objective is multiplied by r and has the same minima (C144_objective), but the descent with a limited number of steps ends elsewhere, because its first step is as long as the gradient: from zeros, one step on r copies of a document ends at r times the weights (C144_descent, r up to 500). Exact numbers."
  },
  {
   "property": "C145",
   "status": "partial",
   "theorems": [
    "Verif.Train.C145_lda",
    "Verif.Train.C145_multinomial",
    "Verif.Train.C145_correspondence_partial",
    "Verif.Train.C145_gap"
   ],
   "note": "Proved for LDA and the multinomial model; the smoothing then amounts to K (mu - 1) words per class. False for the correspondence model if a word of the vocabulary does not occur: that word takes a part of the weights of the words of a document, a part that differs between the classes, and a corpus of two documents gives 20/27 instead of 2/3. It holds there if every word of the vocabulary occurs. Exact numbers."
  },
  {
   "property": "C146",
   "status": "partial",
   "theorems": [
    "Verif.Programs.C146_train_partial",
    "Verif.Programs.C146_unnoticed",
    "Verif.Programs.C146_transform_partial"
   ],
   "note": "False: nobody looks at the state of the streams after writing, so the status is 0 for every pattern of refusals, also if the file could not be opened or is empty (C146_unnoticed). Proved: what the file holds for every pattern, namely the part of the result before the first refusal; it is the whole result exactly if nothing was refused, or the opening was refused and the file held the same already."
  },
  {
   "property": "C147",
   "status": "partial",
   "theorems": [
    "Verif.EStep.C147_unsupervised",
    "Verif.EStep.C147_fast",
    "Verif.EStep.C147_multinomial",
    "Verif.EStep.C147_correspondence_depends",
    "Verif.EStep.C147_supervised_depends",
    "Verif.Train.C147_iteration"
   ],
   "note": "Proved for the unsupervised, fast supervised and multinomial steps and for an iteration of LDA. False for the correspondence step, which divides the class among the words of the vocabulary (a word that occurs twice and two variants that occur once each give another gamma), and for the supervised step, where the variant decides whether the word is looked at before or after another one. The likelihoods that are reported are not claimed to agree (C68). Exact numbers."
  },
  {
   "property": "C148",
   "status": "partial",
   "theorems": [
    "Verif.Optim.C148_descent",
    "Verif.Train.C148_training",
    "Verif.Train.C148_centred",
    "Verif.Train.C148_online",
    "Verif.Train.C148_second_order"
   ],
   "note": "Proved for the descent on the logistic regression with any line search along the gradient, for training with FastSupervisedMStep and SemiSupervisedMStep, and for the online step on documents with words and labels that are classes. False for SupervisedMStep: from weights t and -t one step on a document with one word leaves weights that add up to less than zero, for every t that is not zero. Exact numbers."
  },
  {
   "property": "C149",
   "status": "partial",
   "theorems": [
    "Verif.Decision.C149_predict",
    "Verif.MStep.C149_m_step",
    "Verif.MStep.C149_online",
    "Verif.EStep.C149_fast_step",
    "Verif.EStep.C149_supervised_step",
    "Verif.EStep.C149_fast_step_false",
    "Verif.EStep.C149_supervised_step_false",
    "Verif.Optim.C149_penalty",
    "Verif.Optim.C149_second_false"
   ],
   "note": "Proved for the predictions of documents with words, for the M steps with the first order objective and without a penalty (in every state, and for the online step for every history), and, with the exact exponential, for the supervised E step if the same number is added for all topics. False with a penalty. False for the fast E step, which divides the weights by the greatest of them: C149_fast_step says exactly how the strength of the class changes. False for the supervised E step if the numbers differ from topic to topic, even with a single class. False for the objective of SupervisedMStep, without a penalty too: its second order terms contain the weights themselves."
  },
  {
   "property": "C150",
   "status": "partial",
   "theorems": [
    "Verif.EStep.C150_pass",
    "Verif.EStep.C150_fast_partial",
    "Verif.EStep.C150_two_classes_partial",
    "Verif.EStep.C150_multinomial_partial",
    "Verif.EStep.C150_correspondence_partial",
    "Verif.EStep.C150_supervised_false"
   ],
   "note": "False for the supervised step: with one word, two topics and two classes a document gets less of the topic that speaks for its class than from plain LDA (proved). Proved for the other steps with two topics, the exact exponential, any digamma function that does not decrease, and a tolerance of zero, so that both loops make all their passes; for a single pass of the fast step with any number of topics. With more topics the whole loop is not treated: there a topic can lose to a third one what it gains from a second."
  },
  {
   "property": "C151",
   "status": "partial",
   "theorems": [
    "Verif.FastExp.C151_pieces_partial",
    "Verif.FastExp.C151_drops",
    "Verif.FastExp.C151_rises_false",
    "Verif.FastExp.C151_nearly_partial"
   ],
   "note": "False: at each of the integers 1 to 7, where the number of steps of the recurrence changes, the function falls by the same amount, between 3e-11 and 5e-11 (proved). Proved between neighbouring integers and for all arguments from seven on; over any distance the function falls by at most 5.7e-11."
  },
  {
   "property": "C152",
   "status": "partial",
   "theorems": [
    "Verif.Train.C152_lda",
    "Verif.Train.C152_multinomial",
    "Verif.Train.C152_correspondence",
    "Verif.Optim.C152_weights_false"
   ],
   "note": "Proved for LDA and for the multinomial and correspondence models, classifier included (the documents without words need labels the model knows). False for the classifiers trained by gradient: such a document counts for the weights of the classes, so that the objective changes by more than a constant (proved; with given weights it would be a constant, C81). If the corpus has no other documents, the M step normalises zeros, which it does not do for an empty corpus; that case is left out."
  },
  {
   "property": "C153",
   "status": "partial",
   "theorems": [
    "Verif.MStep.C153_topics",
    "Verif.MStep.C153_start_partial",
    "Verif.MStep.C153_lasting",
    "Verif.MStep.C153_documents_false"
   ],
   "note": "True of the topics at the start: their part is exactly the power of beta_weight. False of the documents: the counts b_ are never set back to zero (C53), so that after N minibatches the share of a word in a topic is at least 1 - beta_weight^N times what it got in the first minibatch, among all words that the topic ever got (C153_lasting); with one topic, exchanging the word of the first document makes a difference of (1 - beta_weight)/(n + 1) or more after n further documents, which no multiple of beta_weight^n bounds."
  },
  {
   "property": "C154",
   "status": "partial",
   "theorems": [
    "Verif.Train.C154_training",
    "Verif.Train.C154_semi",
    "Verif.Train.C154_predict_partial",
    "Verif.Train.C154_semi_predict_partial",
    "Verif.Train.C154_second_order",
    "Verif.Train.C154_slda_partial",
    "Verif.Train.C154_multinomial_partial",
    "Verif.Train.C154_correspondence_partial",
    "Verif.Train.C154_untrained_false",
    "Verif.Train.C154_penalty_false",
    "Verif.MStep.C154_online",
    "Verif.MStep.C154_online_predict_partial",
    "Verif.MStep.C154_online_false"
   ],
   "note": "Proved for the multinomial and correspondence models with a smoothing parameter above 1 and class probabilities at the start that are positive, and for fast and semi-supervised LDA trained from weights zero with a regularization penalty from 0 to 1 and at least one iteration of fit and of the descent: all weights of the class are then negative while those of a topic add up to zero over the classes (C148). C154_training and C154_semi are the invariant for every E step that does not put gamma below alpha. Not so without training: with weights zero the first class is predicted for every document, even if no document has it (C154_untrained_false). With a penalty above 1 the step of the line search can overshoot zero, so that the weight of a class without documents changes its sign (C154_penalty_false). The online step is treated likewise, for every history of calls and for settings with rate * penalty <= (1 - sqrt(momentum))^2, which the defaults meet (C154_online, C154_online_predict_partial); if rate * penalty is two or more, a class without documents is predicted after two documents (C154_online_false). For the second order approximation of supervised LDA the weights of such a class are negative, too, whatever the sign of the other weights, because 1 + s + s^2/2 is never negative (C154_second_order, C154_slda_partial); missing there is that some other class has a higher score, as the weights of a topic need not add up to zero (C148_second_order)."
  },
  {
   "property": "C155",
   "status": "partial",
   "theorems": [
    "Verif.Train.C155_labelled",
    "Verif.Train.C155_unlabelled_false"
   ],
   "note": "The first half is proved, with the E steps that the builder uses by default. The second half is false: without any class the m_step asks for the greatest of no labels, so fit is undefined from the first iteration on, for every E step (C155_unlabelled_false, see also C51_no_labels)."
  },
  {
   "property": "C156",
   "status": "proved",
   "theorems": [
    "Verif.Train.C156_same_model",
    "Verif.Train.C156_unsupervised",
    "Verif.Train.C156_fast_supervised",
    "Verif.Train.C156_semi_supervised",
    "Verif.Train.C156_supervised",
    "Verif.Train.C156_multinomial",
    "Verif.Train.C156_correspondence"
   ],
   "note": "For the six batch M steps, each after any earlier use, and any E step whose result is a function of the document, the parameters and its epoch counter. The random numbers that an E step draws decide only which documents report a likelihood (C41, C107); a transform draws some of them, so it can change which documents of later trainings report theirs. transform of documents without labels is defined for the E steps that look at no label (C72)."
  },
  {
   "property": "C157",
   "status": "proved",
   "theorems": [
    "Verif.Train.C157_training",
    "Verif.Train.C157_semi",
    "Verif.Train.C157_second_order",
    "Verif.Train.C157_flda",
    "Verif.Train.C157_semi_lda",
    "Verif.Train.C157_slda"
   ],
   "note": "Over the real numbers. The default class weights of all documents add up to at most the number of documents (C59), so the likelihood pulls no entry by more than that; the steps of the line search are at most one, so the penalty draws an entry towards zero without crossing it. With the second order approximation the pull is at most twice as strong, because s <= 1 + s^2/2. C157_training, C157_semi and C157_second_order are the invariant for every E step, C157_flda, C157_semi_lda and C157_slda the result for the library's E steps from weights zero, with the scores. Documents of up to 46340 words with the second order step (C80). Penalties above 1 are outside the claim, as the step can then overshoot (C154_penalty_false). The online step is C141."
  },
  {
   "property": "C158",
   "status": "proved",
   "theorems": [
    "Verif.Train.C158_corpora"
   ],
   "note": "Over the real numbers, with a fixed vocabulary and number of classes. The calls are inductively given executions of the thread model, each with its own corpus, number of workers, shuffle and schedule. The further training is compared for an object whose M step has not been undefined (a division by zero, or a line search that does not end); C156 and C08 are the case of one corpus. The state of the E step (the seeds of its random numbers) is handed on to the new object."
  },
  {
   "property": "C159",
   "status": "proved",
   "theorems": [
    "Verif.Train.C159_lda",
    "Verif.Train.C159_flda",
    "Verif.Train.C159_semi"
   ],
   "note": "For LDA, fast supervised and semi-supervised LDA, over the real numbers, with their own E and M steps; the other models are not treated (for supervised LDA C118 needs known words, which a second corpus need not have). Every topic must know a word that occurs in all the corpora, otherwise its row becomes 0/0. As in C118 an E step must do at least one iteration for every document (C118_needs_iteration)."
  }
 ]
}
