# Axioms of the theorems in MANIFEST.json

Written by `tools/gen_axioms.py` from Lean's `collectAxioms`.

## propext (16 theorems)

* `Verif.Counts.C126_order`
* `Verif.Events.C13_readded_listener_lost`
* `Verif.Events.C14_circular_completes`
* `Verif.Events.C14_remove_first_listener_ub`
* `Verif.Events.C15_dispatch_in_order`
* `Verif.Events.C15_remove_earliest`
* `Verif.Events.C15_remove_unknown`
* `Verif.Events.C16_other_thread_queues`
* `Verif.Events.C16_refines`
* `Verif.Events.C70_threadsafe_unaffected`
* `Verif.Pool.C03_no_lost_wakeup`
* `Verif.Pool.C05_zero_workers_stuck`
* `Verif.Pool.C07_foreign_thread_no_epoch_event`
* `Verif.Pool.C71_online_race`
* `Verif.Races.C121_no_worker`
* `Verif.Train.C156_same_model`

## Quot.sound, propext (18 theorems)

* `Verif.Corpus.C114_every_order_once`
* `Verif.Events.C11_no_event_lost`
* `Verif.Events.C12_others_unaffected`
* `Verif.Events.C14_ub_iff_partial`
* `Verif.Events.C16_own_thread_synchronous`
* `Verif.Events.C70_self_removal_ub`
* `Verif.Events.C70_simple_each_once`
* `Verif.Events.C70_simple_no_ub_partial`
* `Verif.Fine.C122_large_steps_exist`
* `Verif.Fine.C122_online_mixes_models`
* `Verif.Fine.C122_same_outcomes_partial`
* `Verif.MathUtils.C28_finite`
* `Verif.MathUtils.C28_zero_weight_ignored`
* `Verif.Races.C119_online_race`
* `Verif.SemiStep.C45_documents`
* `Verif.SemiStep.C45_epochs`
* `Verif.Threads.C120_caller_runs_listeners`
* `Verif.Threads.C120_reused_identifier`

## Classical.choice, Quot.sound, propext (698 theorems)

* `Verif.Apps.C65_file`
* `Verif.Apps.C65_names`
* `Verif.Apps.C65_snapshots`
* `Verif.Apps.C65_zero`
* `Verif.Apps.C66_close_partial`
* `Verif.Apps.C66_defined`
* `Verif.Apps.C66_independent`
* `Verif.Apps.C66_integers`
* `Verif.Apps.C66_overflow`
* `Verif.Apps.C66_silent`
* `Verif.Apps.C66_wrong`
* `Verif.Apps.C67_calls_partial`
* `Verif.Apps.C67_fails`
* `Verif.Apps.C67_ignored`
* `Verif.Apps.C83_progress`
* `Verif.Apps.C84_continue`
* `Verif.Apps.C84_no_file`
* `Verif.Apps.C84_scratch`
* `Verif.Apps.C84_transform`
* `Verif.Apps.C84_unsupervised_continue`
* `Verif.Apps.C84_unsupervised_scratch`
* `Verif.Build.C62_build_partial`
* `Verif.Build.C62_defined`
* `Verif.Build.C62_eta_before_topics`
* `Verif.Build.C62_never_partial`
* `Verif.Build.C62_set_e`
* `Verif.Build.C62_set_m`
* `Verif.Build.C63_alpha`
* `Verif.Build.C63_random`
* `Verif.Build.C63_seeded`
* `Verif.Build.C63_seeded_defined`
* `Verif.Build.C64_builder_reused`
* `Verif.Build.C64_copied_values`
* `Verif.Build.C64_events`
* `Verif.Build.C64_independent_partial`
* `Verif.Build.C64_model_copied`
* `Verif.Build.C64_params_partial`
* `Verif.Build.C64_same_builder`
* `Verif.Build.C64_train_other`
* `Verif.Build.C82_fits_partial`
* `Verif.Build.C82_reinitialised`
* `Verif.Corpus.C114_fit_partial`
* `Verif.Corpus.C114_partial_fit_same_order`
* `Verif.Corpus.C114_position`
* `Verif.Corpus.C17_shuffle_keeps_labels`
* `Verif.Corpus.C18_priors`
* `Verif.Corpus.C18_undefined`
* `Verif.Counts.C126_misused`
* `Verif.Counts.C126_negative`
* `Verif.Counts.C126_too_many`
* `Verif.Counts.C126_undefined`
* `Verif.Counts.C126_used`
* `Verif.Counts.C126_words_partial`
* `Verif.Decision.C115_predict`
* `Verif.Decision.C115_scores`
* `Verif.Decision.C115_ties_negation`
* `Verif.Decision.C116_scores`
* `Verif.Decision.C117_guide_partial`
* `Verif.Decision.C117_margin_partial`
* `Verif.Decision.C117_negation`
* `Verif.Decision.C117_predict_partial`
* `Verif.Decision.C149_predict`
* `Verif.Decision.C60_all_scores`
* `Verif.Decision.C60_in_range`
* `Verif.Decision.C60_no_classes`
* `Verif.Decision.C60_nonempty`
* `Verif.Decision.C60_predict`
* `Verif.Decision.C60_same_predictions`
* `Verif.Decision.C60_scores`
* `Verif.Decision.C60_transform_predict`
* `Verif.Decision.C61_empty`
* `Verif.Decision.C61_empty_document`
* `Verif.Decision.C61_finite_iff_partial`
* `Verif.Disk.C123_complete_partial`
* `Verif.Disk.C123_cut_loads`
* `Verif.Disk.C123_load_partial`
* `Verif.Disk.C123_no_mixture`
* `Verif.Disk.C123_old_model_kept`
* `Verif.Disk.C123_old_model_lost`
* `Verif.Disk.C123_other_files`
* `Verif.Disk.C123_snapshots_partial`
* `Verif.EStep.C100_finite`
* `Verif.EStep.C100_iteration`
* `Verif.EStep.C100_more_iterations`
* `Verif.EStep.C101_evidence_partial`
* `Verif.EStep.C101_evidence_run_partial`
* `Verif.EStep.C101_exceeds_evidence`
* `Verif.EStep.C101_iteration_partial`
* `Verif.EStep.C101_more_iterations_partial`
* `Verif.EStep.C101_not_a_choice`
* `Verif.EStep.C101_not_a_choice_repeated`
* `Verif.EStep.C101_phi_partial`
* `Verif.EStep.C108_correspondence_partial`
* `Verif.EStep.C108_fast_partial`
* `Verif.EStep.C108_long`
* `Verif.EStep.C108_multinomial_partial`
* `Verif.EStep.C108_short`
* `Verif.EStep.C108_supervised_partial`
* `Verif.EStep.C108_unsupervised_partial`
* `Verif.EStep.C113_fast_negation`
* `Verif.EStep.C113_fast_never_settles`
* `Verif.EStep.C113_multinomial_exact`
* `Verif.EStep.C113_supervised_exact`
* `Verif.EStep.C113_unsupervised`
* `Verif.EStep.C113_unsupervised_actual`
* `Verif.EStep.C113_unsupervised_exact`
* `Verif.EStep.C115_correspondence`
* `Verif.EStep.C115_fast`
* `Verif.EStep.C115_multinomial`
* `Verif.EStep.C115_supervised`
* `Verif.EStep.C115_unsupervised`
* `Verif.EStep.C130_asymmetric`
* `Verif.EStep.C130_correspondence_partial`
* `Verif.EStep.C130_fast_differs`
* `Verif.EStep.C130_fast_report`
* `Verif.EStep.C130_multinomial_partial`
* `Verif.EStep.C130_tolerance`
* `Verif.EStep.C130_unsupervised_partial`
* `Verif.EStep.C134_bound`
* `Verif.EStep.C134_fast_partial`
* `Verif.EStep.C134_repeated_word`
* `Verif.EStep.C134_repeated_word_supervised`
* `Verif.EStep.C134_supervised_partial`
* `Verif.EStep.C135_bound_partial`
* `Verif.EStep.C135_exceeds`
* `Verif.EStep.C135_one_word`
* `Verif.EStep.C135_positive`
* `Verif.EStep.C135_prior_partial`
* `Verif.EStep.C135_reported_partial`
* `Verif.EStep.C147_correspondence_depends`
* `Verif.EStep.C147_fast`
* `Verif.EStep.C147_multinomial`
* `Verif.EStep.C147_supervised_depends`
* `Verif.EStep.C147_unsupervised`
* `Verif.EStep.C149_fast_step`
* `Verif.EStep.C149_fast_step_false`
* `Verif.EStep.C149_supervised_step`
* `Verif.EStep.C149_supervised_step_false`
* `Verif.EStep.C150_correspondence_partial`
* `Verif.EStep.C150_fast_partial`
* `Verif.EStep.C150_multinomial_partial`
* `Verif.EStep.C150_pass`
* `Verif.EStep.C150_supervised_false`
* `Verif.EStep.C150_two_classes_partial`
* `Verif.EStep.C35_correspondence`
* `Verif.EStep.C35_correspondence_defined`
* `Verif.EStep.C35_correspondence_tau`
* `Verif.EStep.C35_fast`
* `Verif.EStep.C35_fast_defined`
* `Verif.EStep.C35_fast_empty`
* `Verif.EStep.C35_multinomial`
* `Verif.EStep.C35_multinomial_defined`
* `Verif.EStep.C35_supervised`
* `Verif.EStep.C35_unsupervised`
* `Verif.EStep.C35_unsupervised_defined`
* `Verif.EStep.C36_correspondence`
* `Verif.EStep.C36_fast`
* `Verif.EStep.C36_multinomial`
* `Verif.EStep.C36_supervised`
* `Verif.EStep.C36_unsupervised`
* `Verif.EStep.C37_correspondence`
* `Verif.EStep.C37_fast`
* `Verif.EStep.C37_multinomial`
* `Verif.EStep.C37_supervised`
* `Verif.EStep.C37_unsupervised`
* `Verif.EStep.C38_correspondence`
* `Verif.EStep.C38_fast`
* `Verif.EStep.C38_multinomial_partial`
* `Verif.EStep.C38_multinomial_tolerance_ignored`
* `Verif.EStep.C38_supervised`
* `Verif.EStep.C38_unsupervised`
* `Verif.EStep.C39_correspondence_depends`
* `Verif.EStep.C39_fast`
* `Verif.EStep.C39_multinomial`
* `Verif.EStep.C39_supervised`
* `Verif.EStep.C39_unsupervised`
* `Verif.EStep.C40_fast_partial`
* `Verif.EStep.C40_likelihood_undefined`
* `Verif.EStep.C40_unsupervised`
* `Verif.EStep.C41_multinomial_depends`
* `Verif.EStep.C41_reporting_partial`
* `Verif.EStep.C42_compute_h`
* `Verif.EStep.C42_compute_h_defined`
* `Verif.EStep.C42_sweep`
* `Verif.EStep.C43_eta_zero`
* `Verif.EStep.C43_update`
* `Verif.EStep.C44_weight`
* `Verif.EStep.C68_gap`
* `Verif.EStep.C68_guard`
* `Verif.EStep.C68_repeated_word`
* `Verif.EStep.C68_reported_elbo_partial`
* `Verif.EStep.C69_phi_maximises`
* `Verif.EStep.C75_supervised_partial`
* `Verif.EStep.C75_uninitialised`
* `Verif.EStep.C76_fast`
* `Verif.EStep.C76_fast_value`
* `Verif.EStep.C76_supervised`
* `Verif.EStep.C89_gamma_maximises`
* `Verif.EStep.C90_actual`
* `Verif.EStep.C90_exact`
* `Verif.EStep.C90_finite`
* `Verif.EStep.C90_iteration`
* `Verif.EStep.C90_more_iterations`
* `Verif.EStep.C91_elbo_le`
* `Verif.EStep.C91_repeated_word`
* `Verif.EStep.C91_reported_partial`
* `Verif.EStep.C92_correspondence`
* `Verif.EStep.C92_fast`
* `Verif.EStep.C92_multinomial`
* `Verif.EStep.C92_supervised`
* `Verif.EStep.C92_unsupervised`
* `Verif.EStep.C93_correspondence`
* `Verif.EStep.C93_fast`
* `Verif.EStep.C93_multinomial`
* `Verif.EStep.C93_supervised_depends`
* `Verif.EStep.C93_supervised_partial`
* `Verif.EStep.C93_unsupervised`
* `Verif.EStep.C94_correspondence`
* `Verif.EStep.C94_fast`
* `Verif.EStep.C94_multinomial`
* `Verif.EStep.C98_finite`
* `Verif.EStep.C98_more_iterations_partial`
* `Verif.EStep.C98_repeated_word`
* `Verif.EStep.C98_sweep_partial`
* `Verif.EStep.C99_correspondence_partial`
* `Verif.EStep.C99_correspondence_value`
* `Verif.EStep.C99_multinomial_partial`
* `Verif.EStep.C99_multinomial_value`
* `Verif.EStep.C99_prior`
* `Verif.EStep.fastPrims_distinguishes`
* `Verif.Entry.C72_fit_partial`
* `Verif.Entry.C72_transform_partial`
* `Verif.Entry.C72_undefined`
* `Verif.Entry.C85_documents_partial`
* `Verif.Entry.C85_labelled`
* `Verif.Entry.C85_undefined`
* `Verif.Entry.C86_combinations_partial`
* `Verif.Entry.C86_undefined`
* `Verif.Events.C11_concurrent`
* `Verif.Events.C11_process_notifies`
* `Verif.Events.C12_removed_not_notified`
* `Verif.Events.C13_added_is_notified_partial`
* `Verif.Events.C15_history`
* `Verif.FastExp.C151_drops`
* `Verif.FastExp.C151_nearly_partial`
* `Verif.FastExp.C151_pieces_partial`
* `Verif.FastExp.C151_rises_false`
* `Verif.FastExp.C29_halvings`
* `Verif.FastExp.C29_no_overflow`
* `Verif.FastExp.C29_table_size`
* `Verif.FastExp.C29_total`
* `Verif.FastExp.C30_accuracy`
* `Verif.FastExp.C30_outside`
* `Verif.FastExp.C30_reciprocal`
* `Verif.FastExp.C30_table`
* `Verif.FastExp.C31_monotone_partial`
* `Verif.FastExp.C31_not_monotone`
* `Verif.FastExp.C32_defined`
* `Verif.FastExp.C32_large`
* `Verif.FastExp.C32_positive`
* `Verif.FastExp.C32_recurrence`
* `Verif.FastExp.C88_accuracy`
* `Verif.FastExp.C88_large`
* `Verif.Fine.C122_one_model_partial`
* `Verif.Fine.C122_sequential_partial`
* `Verif.Limits.C127_double_default_partial`
* `Verif.Limits.C127_double_partial`
* `Verif.Limits.C127_double_prior_partial`
* `Verif.Limits.C127_float_default_partial`
* `Verif.Limits.C127_float_partial`
* `Verif.Limits.C127_float_prior_partial`
* `Verif.Limits.C127_lost_double`
* `Verif.Limits.C127_lost_float`
* `Verif.Limits.C127_pass_partial`
* `Verif.MStep.C102_correspondence_partial`
* `Verif.MStep.C102_correspondence_topics`
* `Verif.MStep.C102_multinomial`
* `Verif.MStep.C102_unsupervised`
* `Verif.MStep.C111_fast`
* `Verif.MStep.C115_fast_m_partial`
* `Verif.MStep.C115_multinomial_m`
* `Verif.MStep.C115_online_negation`
* `Verif.MStep.C115_online_partial`
* `Verif.MStep.C115_supervised_m_partial`
* `Verif.MStep.C116_fast_m`
* `Verif.MStep.C116_multinomial_m`
* `Verif.MStep.C116_online`
* `Verif.MStep.C116_supervised_m`
* `Verif.MStep.C141_bounded_partial`
* `Verif.MStep.C141_diverges`
* `Verif.MStep.C141_diverges_from_zeros`
* `Verif.MStep.C141_iff`
* `Verif.MStep.C141_no_penalty`
* `Verif.MStep.C141_short_steps_partial`
* `Verif.MStep.C149_m_step`
* `Verif.MStep.C149_online`
* `Verif.MStep.C153_documents_false`
* `Verif.MStep.C153_lasting`
* `Verif.MStep.C153_start_partial`
* `Verif.MStep.C153_topics`
* `Verif.MStep.C154_online`
* `Verif.MStep.C154_online_false`
* `Verif.MStep.C154_online_predict_partial`
* `Verif.MStep.C46_fast`
* `Verif.MStep.C46_second`
* `Verif.MStep.C46_topics`
* `Verif.MStep.C47_fast`
* `Verif.MStep.C47_multinomial_no_documents`
* `Verif.MStep.C47_multinomial_partial`
* `Verif.MStep.C47_no_documents`
* `Verif.MStep.C47_second`
* `Verif.MStep.C47_unsupervised_partial`
* `Verif.MStep.C48_no_documents`
* `Verif.MStep.C48_topic_without_words`
* `Verif.MStep.C48_valid_partial`
* `Verif.MStep.C49_beta`
* `Verif.MStep.C49_correspondence`
* `Verif.MStep.C49_eta`
* `Verif.MStep.C49_event`
* `Verif.MStep.C49_multinomial`
* `Verif.MStep.C50_fast`
* `Verif.MStep.C50_fast_trains`
* `Verif.MStep.C50_second`
* `Verif.MStep.C50_second_trains`
* `Verif.MStep.C51_beta`
* `Verif.MStep.C51_defined`
* `Verif.MStep.C51_eta`
* `Verif.MStep.C51_no_labels`
* `Verif.MStep.C52_beta_stochastic`
* `Verif.MStep.C52_between`
* `Verif.MStep.C52_count`
* `Verif.MStep.C52_defined`
* `Verif.MStep.C52_finite`
* `Verif.MStep.C52_m_step_no_op`
* `Verif.MStep.C52_update_eta`
* `Verif.MStep.C52_zero`
* `Verif.MStep.C53_all_documents`
* `Verif.MStep.C53_first_minibatch_partial`
* `Verif.MStep.C53_not_only_minibatch`
* `Verif.MStep.C53_weights_ignored`
* `Verif.MStep.C53_weights_wrong`
* `Verif.MStep.C80_defined_partial`
* `Verif.MStep.C80_overflow`
* `Verif.MStep.C81_empty_defined`
* `Verif.MStep.C81_empty_document`
* `Verif.MStep.C81_fast_partial`
* `Verif.MStep.C81_online`
* `Verif.MathUtils.C27_idempotent`
* `Verif.MathUtils.C27_nonneg`
* `Verif.MathUtils.C27_normalize_cols`
* `Verif.MathUtils.C27_normalize_rows`
* `Verif.MathUtils.C28_product`
* `Verif.MathUtils.C28_special`
* `Verif.MathUtils.C28_special_rows`
* `Verif.MathUtils.C28_sums`
* `Verif.MathUtils.C28_value`
* `Verif.MathUtils.C33_matrix_to_vector`
* `Verif.MathUtils.C33_round_trip`
* `Verif.MathUtils.C33_too_short`
* `Verif.MathUtils.C33_vector_to_matrix`
* `Verif.MathUtils.C34_divide`
* `Verif.MathUtils.C34_product_of_nonzeros`
* `Verif.Numpy.C109_any_dimensions_partial`
* `Verif.Numpy.C109_empty`
* `Verif.Numpy.C109_empty_matrix`
* `Verif.Numpy.C109_large`
* `Verif.Numpy.C109_scalar`
* `Verif.Numpy.C109_silent`
* `Verif.Numpy.C109_two_dimensions_partial`
* `Verif.Numpy.C19_save_load`
* `Verif.Numpy.C20_data_file`
* `Verif.Numpy.C20_sequences`
* `Verif.Numpy.C21_valid_npy`
* `Verif.Numpy.C22_empty`
* `Verif.Numpy.C22_type`
* `Verif.Numpy.C22_version`
* `Verif.Numpy.C22_version_high`
* `Verif.Numpy.C23_numpy_files`
* `Verif.Numpy.C24_byte_order_ignored`
* `Verif.Numpy.C24_byte_order_partial`
* `Verif.Numpy.C24_foreign_bytes_reversed`
* `Verif.Numpy.C25_header_cut`
* `Verif.Numpy.C25_short_files_rejected_partial`
* `Verif.Numpy.C25_silent_corruption`
* `Verif.Numpy.C25_truncated_accepted`
* `Verif.Numpy.C26_model_round_trip`
* `Verif.Numpy.C73_big_endian_host_loses`
* `Verif.Numpy.C73_zero_partial`
* `Verif.Numpy.C74_magic_ignored`
* `Verif.Numpy.C74_version_partial`
* `Verif.Numpy.C74_wrong_magic_accepted`
* `Verif.Optim.C111_m_step`
* `Verif.Optim.C131_descends_partial`
* `Verif.Optim.C131_ends_partial`
* `Verif.Optim.C131_nan`
* `Verif.Optim.C131_overflow`
* `Verif.Optim.C131_stops`
* `Verif.Optim.C131_underflow`
* `Verif.Optim.C144_objective`
* `Verif.Optim.C148_descent`
* `Verif.Optim.C149_penalty`
* `Verif.Optim.C149_second_false`
* `Verif.Optim.C152_weights_false`
* `Verif.Optim.C54_largest_step`
* `Verif.Optim.C54_returns`
* `Verif.Optim.C55_terminates`
* `Verif.Optim.C56_events`
* `Verif.Optim.C56_logistic_terminates`
* `Verif.Optim.C56_m_step`
* `Verif.Optim.C56_never_increases`
* `Verif.Optim.C56_second_terminates`
* `Verif.Optim.C56_terminates`
* `Verif.Optim.C57_gradient`
* `Verif.Optim.C57_nonneg`
* `Verif.Optim.C57_undefined`
* `Verif.Optim.C57_value`
* `Verif.Optim.C58_gradient`
* `Verif.Optim.C58_needs_psd`
* `Verif.Optim.C58_nonneg`
* `Verif.Optim.C58_value`
* `Verif.Optim.C59_absent_unused`
* `Verif.Optim.C59_balanced`
* `Verif.Optim.C59_total`
* `Verif.Optim.C59_undefined`
* `Verif.Optim.C59_weights`
* `Verif.Optim.C77_armijo_not_descent`
* `Verif.Optim.C77_armijo_partial`
* `Verif.Optim.C77_constant`
* `Verif.Optim.C78_callback_partial`
* `Verif.Optim.C78_first_norm`
* `Verif.Optim.C78_stale_norm`
* `Verif.Optim.C79_convex`
* `Verif.Optim.C79_minimum`
* `Verif.Overflow.C129_double_partial`
* `Verif.Overflow.C129_float_partial`
* `Verif.Overflow.C129_over_double`
* `Verif.Overflow.C129_over_float`
* `Verif.Overflow.C129_ratio_double`
* `Verif.Overflow.C129_ratio_float`
* `Verif.Overflow.C129_under_double`
* `Verif.Overflow.C129_under_float`
* `Verif.Overflow.C130_supervised_first`
* `Verif.Overflow.C130_supervised_undefined`
* `Verif.Overflow.C136_double_partial`
* `Verif.Overflow.C136_float_partial`
* `Verif.Overflow.C136_over_double`
* `Verif.Overflow.C136_over_float`
* `Verif.Overflow.C136_under_double`
* `Verif.Overflow.C136_under_float`
* `Verif.Overflow.C137_correspondence_double_partial`
* `Verif.Overflow.C137_correspondence_float_partial`
* `Verif.Overflow.C137_correspondence_negative`
* `Verif.Overflow.C137_correspondence_undefined`
* `Verif.Overflow.C137_lost`
* `Verif.Overflow.C137_lost_double`
* `Verif.Overflow.C137_lost_float`
* `Verif.Overflow.C137_multinomial_double_partial`
* `Verif.Overflow.C137_multinomial_float_partial`
* `Verif.Overflow.C137_multinomial_negative`
* `Verif.Overflow.C137_weightless`
* `Verif.Overflow.C138_correspondence_double_partial`
* `Verif.Overflow.C138_correspondence_float_partial`
* `Verif.Overflow.C138_correspondence_needs`
* `Verif.Overflow.C138_correspondence_unseen`
* `Verif.Overflow.C138_multinomial_double_partial`
* `Verif.Overflow.C138_multinomial_float_partial`
* `Verif.Overflow.C138_multinomial_needs`
* `Verif.Overflow.C138_multinomial_unseen`
* `Verif.Overflow.C138_unsupervised_double_partial`
* `Verif.Overflow.C138_unsupervised_float_partial`
* `Verif.Overflow.C139_double_partial`
* `Verif.Overflow.C139_float_partial`
* `Verif.Overflow.C139_unused`
* `Verif.Overflow.C140_correspondence_double_partial`
* `Verif.Overflow.C140_correspondence_unsmoothed`
* `Verif.Overflow.C140_multinomial_double_partial`
* `Verif.Overflow.C140_multinomial_unsmoothed`
* `Verif.Overflow.C142_fast`
* `Verif.Overflow.C142_iff`
* `Verif.Overflow.C142_negative_partial`
* `Verif.Overflow.C142_negative_prior`
* `Verif.Overflow.C142_ninf`
* `Verif.Overflow.C142_nonneg`
* `Verif.Overflow.C142_special`
* `Verif.Overflow.C142_supervised`
* `Verif.Overflow.C142_unsupervised`
* `Verif.Overflow.C143_correspondence_numbers`
* `Verif.Overflow.C143_lda_numbers`
* `Verif.Overflow.C143_multinomial_numbers`
* `Verif.Pool.C01_each_document_once`
* `Verif.Pool.C01_result_of_same_document`
* `Verif.Pool.C02_transform_columns`
* `Verif.Pool.C03_no_deadlock`
* `Verif.Pool.C04_bounded`
* `Verif.Pool.C04_maximal_returned`
* `Verif.Pool.C04_no_infinite`
* `Verif.Pool.C05_returns_partial`
* `Verif.Pool.C05_zero_workers_never_return`
* `Verif.Pool.C06_calls_independent`
* `Verif.Pool.C06_nothing_left`
* `Verif.Pool.C07_event_before_consume`
* `Verif.Pool.C07_event_order_partial`
* `Verif.Pool.C08_schedule_independent`
* `Verif.Pool.C09_one_at_a_time_partial`
* `Verif.Pool.C09_one_worker_order`
* `Verif.Pool.C104_moves`
* `Verif.Pool.C105_conserved`
* `Verif.Pool.C105_flushed`
* `Verif.Pool.C105_order`
* `Verif.Pool.C105_own_events`
* `Verif.Pool.C107_conserved`
* `Verif.Pool.C107_depends`
* `Verif.Pool.C107_extremes`
* `Verif.Pool.C107_number_depends`
* `Verif.Pool.C107_one_worker_partial`
* `Verif.Pool.C10_epochs`
* `Verif.Pool.C10_fit_is_iterated_epoch`
* `Verif.Pool.C112_jobs_left`
* `Verif.Pool.C112_never_recovers`
* `Verif.Pool.C112_safe_partial`
* `Verif.Pool.C112_stale_call`
* `Verif.Pool.C112_terminates`
* `Verif.Pool.C112_threads_left`
* `Verif.Pool.C112_usable_partial`
* `Verif.Pool.C133_answers_partial`
* `Verif.Pool.C133_bounded_partial`
* `Verif.Pool.C133_continued_partial`
* `Verif.Pool.C133_dead_only`
* `Verif.Pool.C133_late_partial`
* `Verif.Pool.C133_nest`
* `Verif.Pool.C133_nested_twice`
* `Verif.Pool.C133_other_thread`
* `Verif.Pool.C133_returns_partial`
* `Verif.Pool.C133_seen`
* `Verif.Pool.C133_terminates`
* `Verif.Pool.C133_training_partial`
* `Verif.Pool.C71_no_write_during_e_step_partial`
* `Verif.Pool.C95_bounded`
* `Verif.Pool.C95_one_worker`
* `Verif.Pool.C95_orders`
* `Verif.Pool.C95_possible`
* `Verif.Primitives.C132_assumption`
* `Verif.Primitives.C132_digamma`
* `Verif.Primitives.C132_digamma_ends`
* `Verif.Primitives.C132_digamma_returns`
* `Verif.Primitives.C132_double`
* `Verif.Primitives.C132_fast_exp`
* `Verif.Primitives.C132_fast_exp_outside`
* `Verif.Primitives.C132_fast_exp_returns`
* `Verif.Primitives.close_fl`
* `Verif.Primitives.double_fl`
* `Verif.Primitives.single_fl`
* `Verif.Primitives.single_fl_double`
* `Verif.Programs.C124_labels_wanted`
* `Verif.Programs.C124_no_workers`
* `Verif.Programs.C124_output_partial`
* `Verif.Programs.C124_returns`
* `Verif.Programs.C124_same`
* `Verif.Programs.C124_shapes`
* `Verif.Programs.C124_unreadable`
* `Verif.Programs.C125_files_partial`
* `Verif.Programs.C125_lda_partial`
* `Verif.Programs.C125_no_workers`
* `Verif.Programs.C125_programs`
* `Verif.Programs.C125_returns`
* `Verif.Programs.C125_same`
* `Verif.Programs.C125_unreadable`
* `Verif.Programs.C146_train_partial`
* `Verif.Programs.C146_transform_partial`
* `Verif.Programs.C146_unnoticed`
* `Verif.Races.C119_no_race`
* `Verif.Races.C119_races_partial`
* `Verif.Races.C121_bounded`
* `Verif.Races.C121_can_complete`
* `Verif.Races.C121_never_stuck`
* `Verif.Rounded.C106_frequencies_partial`
* `Verif.Rounded.C106_stuck`
* `Verif.Rounded.C106_wrong`
* `Verif.Rounded.C110_increases`
* `Verif.Rounded.C110_minimize_partial`
* `Verif.Rounded.C110_search_partial`
* `Verif.Rounded.C110_terminates`
* `Verif.Rounded.C110_unchecked`
* `Verif.Rounded.C96_gamma`
* `Verif.Rounded.C96_normalize`
* `Verif.Rounded.C96_schedules`
* `Verif.Rounded.C96_topics`
* `Verif.Rounded.C97_depends`
* `Verif.Rounded.C97_one_worker_partial`
* `Verif.SemiStep.C45_destroyed`
* `Verif.SemiStep.C45_library`
* `Verif.SemiStep.C45_same_object_twice`
* `Verif.Threads.C120_fresh_identifiers_partial`
* `Verif.Threads.C120_listeners_not_on_workers_partial`
* `Verif.Threads.C120_one_thread`
* `Verif.Train.C08_correspondence`
* `Verif.Train.C08_fast_supervised`
* `Verif.Train.C08_fit`
* `Verif.Train.C08_multinomial`
* `Verif.Train.C08_partial_fit`
* `Verif.Train.C08_semi_supervised`
* `Verif.Train.C08_supervised`
* `Verif.Train.C08_unsupervised`
* `Verif.Train.C09_one_worker_depends`
* `Verif.Train.C09_order_depends`
* `Verif.Train.C103_decreases`
* `Verif.Train.C103_m_step_partial`
* `Verif.Train.C115_fit_correspondence`
* `Verif.Train.C115_fit_fast_partial`
* `Verif.Train.C115_fit_multinomial`
* `Verif.Train.C115_fit_semi_partial`
* `Verif.Train.C115_fit_supervised_partial`
* `Verif.Train.C116_correspondence`
* `Verif.Train.C116_fit_correspondence`
* `Verif.Train.C116_fit_fast`
* `Verif.Train.C116_fit_multinomial`
* `Verif.Train.C116_fit_semi`
* `Verif.Train.C116_fit_supervised`
* `Verif.Train.C116_fit_unsupervised`
* `Verif.Train.C116_flda`
* `Verif.Train.C116_lda`
* `Verif.Train.C116_multinomial`
* `Verif.Train.C116_slda_partial`
* `Verif.Train.C118_correspondence`
* `Verif.Train.C118_fit_correspondence`
* `Verif.Train.C118_fit_fast`
* `Verif.Train.C118_fit_multinomial`
* `Verif.Train.C118_fit_semi`
* `Verif.Train.C118_fit_supervised`
* `Verif.Train.C118_fit_unsupervised`
* `Verif.Train.C118_flda`
* `Verif.Train.C118_lda`
* `Verif.Train.C118_multinomial`
* `Verif.Train.C118_needs_iteration`
* `Verif.Train.C118_semi`
* `Verif.Train.C118_slda`
* `Verif.Train.C143_correspondence`
* `Verif.Train.C143_flda`
* `Verif.Train.C143_lda`
* `Verif.Train.C143_multinomial`
* `Verif.Train.C143_online`
* `Verif.Train.C143_slda`
* `Verif.Train.C144_correspondence_partial`
* `Verif.Train.C144_descent`
* `Verif.Train.C144_lda`
* `Verif.Train.C144_multinomial_partial`
* `Verif.Train.C144_smoothing`
* `Verif.Train.C145_correspondence_partial`
* `Verif.Train.C145_gap`
* `Verif.Train.C145_lda`
* `Verif.Train.C145_multinomial`
* `Verif.Train.C147_iteration`
* `Verif.Train.C148_centred`
* `Verif.Train.C148_online`
* `Verif.Train.C148_second_order`
* `Verif.Train.C148_training`
* `Verif.Train.C152_correspondence`
* `Verif.Train.C152_lda`
* `Verif.Train.C152_multinomial`
* `Verif.Train.C154_correspondence_partial`
* `Verif.Train.C154_multinomial_partial`
* `Verif.Train.C154_penalty_false`
* `Verif.Train.C154_predict_partial`
* `Verif.Train.C154_second_order`
* `Verif.Train.C154_semi`
* `Verif.Train.C154_semi_predict_partial`
* `Verif.Train.C154_slda_partial`
* `Verif.Train.C154_training`
* `Verif.Train.C154_untrained_false`
* `Verif.Train.C155_labelled`
* `Verif.Train.C155_unlabelled_false`
* `Verif.Train.C156_correspondence`
* `Verif.Train.C156_fast_supervised`
* `Verif.Train.C156_multinomial`
* `Verif.Train.C156_semi_supervised`
* `Verif.Train.C156_supervised`
* `Verif.Train.C156_unsupervised`
* `Verif.Train.C157_flda`
* `Verif.Train.C157_second_order`
* `Verif.Train.C157_semi`
* `Verif.Train.C157_semi_lda`
* `Verif.Train.C157_slda`
* `Verif.Train.C157_training`
* `Verif.Train.C158_corpora`
* `Verif.Train.C159_flda`
* `Verif.Train.C159_lda`
* `Verif.Train.C159_semi`
* `Verif.Train.C87_constant_weight`
* `Verif.Train.C87_decay`
* `Verif.Train.C87_online`
* `Verif.Train.C87_resume_partial`
* `Verif.View.C128_document`
* `Verif.View.C128_fit_partial`
* `Verif.View.C128_grown`
* `Verif.View.C128_leftover`
* `Verif.View.C128_orphan`
* `Verif.View.C128_priors`
* `Verif.View.C128_safe_partial`
