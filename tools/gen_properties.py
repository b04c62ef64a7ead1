#!/usr/bin/env python3
"""Writes ../properties.jsonl.  One call of P(...) per property."""
import json, os
OUT = []
def P(title, statement, quantifier, why, anchors):
    OUT.append(dict(id="C%02d" % (len(OUT)+1), title=title, statement=statement,
                    quantifier=quantifier, why_tests_cant=why, anchors=anchors))

LDA="src/ldaplusplus/LDA.cpp"; EV="src/ldaplusplus/events/Events.cpp"; DOC="src/ldaplusplus/Document.cpp"
NP="include/ldaplusplus/NumpyFormat.hpp"; UT="include/ldaplusplus/utils.hpp"; ESU="src/ldaplusplus/e_step_utils.cpp"
EM="src/ldaplusplus/em/"; GD="include/ldaplusplus/optimization/GradientDescent.hpp"
MLR="src/ldaplusplus/optimization/MultinomialLogisticRegression.cpp"
SOL="src/ldaplusplus/optimization/SecondOrderLogisticRegressionApproximation.cpp"
BC="src/ldaplusplus/LDABuilder.cpp"; BH="include/ldaplusplus/LDABuilder.hpp"; AP="src/applications/"

# ---- worker pool / LDA -------------------------------------------------
P("partial_fit processes every document exactly once, with its own E-step result",
  "When a call of LDA::partial_fit(corpus) returns, the maximization step has been given every document of the corpus exactly once, and each document was given together with the variational parameters that the expectation step computed for that same document.",
  "every corpus size, every number of workers, every interleaving of the worker threads and the calling thread, including spurious condition-variable wake-ups",
  "a test run exercises a handful of the exponentially many interleavings of the pool",
  [LDA+": LDA::partial_fit, LDA::doc_e_step_worker, LDA::extract_vp_from_queue"])
P("transform puts the result of document i in column i",
  "For every schedule, LDA::transform(X) returns a matrix whose column i is the gamma the expectation step computes for column i of X under the current model; every column is written, once.",
  "every X, every number of workers, every interleaving",
  "column mix-ups would appear only under particular completion orders",
  [LDA+": LDA::transform, LDA::doc_e_step_worker, LDA::extract_vp_from_queue"])
P("No deadlock and no lost wake-up with at least one worker",
  "With at least one worker thread, a call of partial_fit or transform never reaches a state in which no thread can take a step, unless the call has returned; in particular the caller never stays blocked in the condition variable while a result is queued and no notification is pending.",
  "every reachable state of the pool, every corpus size, every number of workers >= 1",
  "deadlocks and lost wake-ups are schedule dependent",
  [LDA+": LDA::partial_fit, LDA::doc_e_step_worker, LDA::extract_vp_from_queue, LDA::destroy_worker_pool"])
P("Every execution of the pool is finite",
  "Apart from spurious condition-variable wake-ups, every execution of a partial_fit/transform call takes a bounded number of thread steps, so under any scheduler that keeps running enabled threads the call returns; the bound is linear in the number of documents plus workers.",
  "every execution, every corpus size and number of workers",
  "termination of all executions is not observable by finitely many runs",
  [LDA+": LDA::partial_fit, LDA::doc_e_step_worker, LDA::destroy_worker_pool"])
P("partial_fit and transform return for every accepted worker count",
  "partial_fit and transform return for every worker count the API accepts, including zero (accepted by set_workers and the LDA constructor, and a possible value of the default hardware_concurrency()).",
  "every corpus, every worker count including zero, every execution",
  "non-termination cannot be established by running",
  [LDA+": LDA::create_worker_pool, LDA::extract_vp_from_queue", BC+": LDABuilder::LDABuilder, LDABuilder::set_workers"])
P("The pool is reusable: queues are empty and all workers joined on return",
  "When partial_fit or transform returns, both internal queues are empty, no job is in flight and every worker has terminated, so consecutive calls of fit/partial_fit/transform never see a document or result of an earlier call.",
  "every schedule of every sequence of calls",
  "left-overs would only show under rare schedules",
  [LDA+": LDA::partial_fit, LDA::transform, LDA::destroy_worker_pool"])
P("All expectation events of an epoch are delivered before the epoch event",
  "When partial_fit returns, every listener registered throughout the call has received exactly one ExpectationProgressEvent per document, and all of them before any event of the batch maximization step and before the single EpochProgressEvent.",
  "every schedule, corpus size and number of workers",
  "event/queue races depend on the schedule",
  [LDA+": LDA::partial_fit, LDA::process_worker_events", EV+": SameThreadEventDispatcher::dispatch, ThreadSafeEventDispatcher::process_events"])
P("Training with a batch M step does not depend on the schedule",
  "With the unsupervised, supervised, fast supervised, semi-supervised, multinomial or correspondence M step, the model parameters after partial_fit are the same (in exact arithmetic) for every interleaving and every number of workers.",
  "all pairs of schedules and worker counts, any corpus",
  "one would have to compare all schedules",
  [LDA+": LDA::partial_fit", EM+"UnsupervisedMStep.cpp", EM+"FastSupervisedMStep.cpp", EM+"MultinomialSupervisedMStep.cpp", EM+"CorrespondenceSupervisedMStep.cpp"])
P("Training with the online M step is a function of data, seed and parameters",
  "With FastOnlineSupervisedMStep the model parameters after partial_fit are determined by the data, the seed and the parameters, not by the thread schedule; with a single document in flight (one worker, minibatches applied between documents) they equal those of the sequential algorithm.",
  "all schedules and worker counts, any corpus and minibatch size",
  "a test sees whichever schedule the OS picks",
  [EM+"FastOnlineSupervisedMStep.cpp: doc_m_step", LDA+": LDA::doc_e_step_worker"])
P("fit performs exactly the configured number of epochs",
  "LDA::fit behaves as `iterations` consecutive partial_fit calls on one corpus and raises exactly `iterations` EpochProgressEvents; iterations = 0 leaves the model unchanged.",
  "every iteration count, corpus and schedule",
  "quantifies over all iteration counts",
  [LDA+": LDA::fit"])
# ---- events -----------------------------------------------------------
P("Thread-safe dispatcher delivers each event exactly once, in order",
  "With ThreadSafeEventDispatcher, over any sequence of add, remove, dispatch and process_events calls, every dispatched event is delivered in at most one process_events call, to exactly the listeners registered then, in dispatch order, each listener in registration order; no event is lost or duplicated.",
  "every history of calls, any number of listeners and events",
  "histories are unbounded",
  [EV+": ThreadSafeEventDispatcher::dispatch, ThreadSafeEventDispatcher::process_events"])
P("A removed listener is not notified any more",
  "After remove_listener(l) no later process_events call notifies l unless l is added again after that; removing a listener does not affect what the other listeners receive.",
  "every history of calls",
  "histories are unbounded",
  [EV+": ThreadSafeEventDispatcher::remove_listener, ThreadSafeEventDispatcher::process_events"])
P("A listener added last is notified",
  "If the last call concerning listener l before process_events is add_listener(l), l receives the pending events.",
  "every history of calls",
  "needs a particular call order that the existing tests never produce",
  [EV+": ThreadSafeEventDispatcher::add_listener, ThreadSafeEventDispatcher::process_events"])
P("process_events is free of undefined behaviour",
  "Processing events never invokes undefined behaviour, whatever listeners were added and removed before.",
  "every state of the dispatcher",
  "undefined behaviour is not observable by a passing test",
  [EV+": ThreadSafeEventDispatcher::process_events"])
P("Simple dispatcher: registered listeners get every event, in order",
  "EventDispatcher behaves as a list of registrations: dispatch notifies each registration once in order; remove_listener drops the earliest registration of that listener only; unknown listeners are ignored.",
  "every history of calls",
  "histories are unbounded",
  [EV+": EventDispatcher::add_listener, EventDispatcher::remove_listener, EventDispatcher::dispatch"])
P("Same-thread dispatcher is synchronous on its own thread only",
  "SameThreadEventDispatcher::dispatch called on the creating thread returns with the event (and everything queued before it by other threads, first) delivered; called on another thread it never calls a listener, and the event is delivered by the next dispatch or process_events of the creating thread.",
  "every history of calls from any threads",
  "depends on the interleaving of threads",
  [EV+": SameThreadEventDispatcher::dispatch"])
# ---- corpus -----------------------------------------------------------
P("Shuffling permutes documents and keeps labels attached",
  "After any number of shuffles with any random numbers, corpus.at(0..size-1) enumerates every column of X exactly once and each document carries the label of its own column.",
  "every X, y, number of shuffles and random stream",
  "all random streams cannot be enumerated",
  [DOC+": CorpusIndexes::shuffle, EigenClassificationCorpus::at, EigenCorpus::at"])
P("Class priors are the label frequencies",
  "For non-empty labels that are all >= 0, get_prior(c) is (number of documents with label c)/(number of documents) for every c up to the largest label, priors are >= 0 and sum to 1. For an empty label vector or a negative label (the convention for unlabelled documents of the semi-supervised steps) constructing the corpus is undefined behaviour.",
  "every label vector",
  "all label vectors; undefined behaviour is not observable",
  [DOC+": EigenClassificationCorpus::EigenClassificationCorpus, EigenClassificationCorpus::get_prior"])
# ---- numpy ------------------------------------------------------------
P("Saving and loading a matrix is the identity",
  "numpy_format::load of what numpy_format::save wrote gives back the same matrix: same shape, same entries bit for bit, for every element type and for both storage orders, and consumes exactly the bytes written (on little-endian hosts; C73 is about big-endian ones).",
  "every matrix shape (non-empty, dimensions within the int range), every content, every element type",
  "unbounded shapes and contents",
  [NP+": NumpyOutput, operator<<, NumpyInput, operator>>, save, load"])
P("Arrays written one after the other are read back one after the other",
  "Any sequence of arrays written to one stream is read back as the same sequence, so a data file holding X then y is parsed as (X, y) (little-endian hosts).",
  "every sequence length, shapes and contents",
  "unbounded sequences",
  [NP+": operator<<, operator>>", AP+"lda_io.cpp: parse_input_data"])
P("The files written are valid NPY version 1.0 files",
  "What save writes starts with the magic string and version 1.0, then the little-endian header length, then an ASCII header with exactly the keys descr, fortran_order and shape, terminated by a newline and padded so that the data starts at a multiple of 16, then exactly rows*cols*itemsize data bytes.",
  "every matrix whose header fits in 16 bits",
  "unbounded shapes",
  [NP+": NumpyOutput::operator<<"])
P("Loading rejects wrong element types, unsupported versions and empty input",
  "Reading throws runtime_error for a file whose version byte is in 2..127, for an empty stream, and for a header whose element type differs from the requested one; it never returns an array in these cases.",
  "every byte stream",
  "all byte streams",
  [NP+": NumpyInput::operator>>"])
P("Arrays written by numpy itself are understood",
  "A version 1.0 file with numpy's own header layout, C or Fortran order, one or more dimensions, is read with the right shape, and the conversion to a matrix puts element (j, i) of the (rows x product of the rest) view in place (j, i).",
  "every shape, both orders, every content in the machine's byte order",
  "unbounded shapes and contents",
  [NP+": NumpyInput::operator>>, NumpyInput::operator Eigen::Matrix"])
P("Byte order is honoured",
  "A file in the other byte order loads with the same values.",
  "every file of the non-native byte order",
  "no test file of the other byte order exists; all contents",
  [NP+": swap_endianess, NumpyInput::operator>>"])
P("Truncated files are detected",
  "Loading a file that was cut short anywhere fails with an exception instead of returning an array.",
  "every truncation point inside the data",
  "every crash point of the writer",
  [NP+": NumpyInput::operator>>"])
P("Model save/load round trip",
  "load_lda of a file written by save_lda returns the same alpha, beta and eta, for all sizes with at least one entry in each (little-endian hosts).",
  "every model",
  "unbounded sizes and contents",
  [AP+"lda_io.cpp: save_lda, load_lda"])
# ---- math utils -------------------------------------------------------
P("normalize_rows/normalize_cols",
  "After normalize_rows (normalize_cols) every row (column) whose sum was non-zero sums to 1 and is proportional to what it was, every row (column) whose sum was zero is unchanged; doing it twice is the same as once; non-negative matrices stay non-negative.",
  "every matrix over an ordered field",
  "all matrices",
  [UT+": normalize_rows, normalize_cols"])
P("Scaled sums ignore columns with zero weight, even NaN ones",
  "sum_cols_scaled/sum_rows_scaled add sum_i y_i * x_i to the result; columns (rows) with y_i = 0 have no influence even when they hold NaN or infinities, and the result is finite whenever the columns with non-zero weight are; infinite and NaN entries with another weight give what IEEE 754 prescribes.",
  "every matrix, including non-finite entries, and every weight vector",
  "all matrices and special values",
  [UT+": sum_rows_scaled, sum_cols_scaled", ESU+": compute_gamma"])
P("fast_exp never indexes outside its table and terminates",
  "For every non-NaN argument fast_exp terminates, the table index is within the 1024 entries, and the result is positive and finite (below the overflow limit).",
  "every real argument",
  "all arguments, boundaries of each halving",
  [UT+": fast_exp, exp_lut"])
P("fast_exp is accurate",
  "The table entry i is exp(i/1023) up to rounding, and for |x| <= 100 the natural logarithm of fast_exp(x) differs from x by at most max(1, 2|x|)/1023 (plus rounding of the table); outside it is std::exp itself; fast_exp(-x) * fast_exp(x) = 1.",
  "every real argument; all 1024 table entries",
  "all arguments",
  [UT+": fast_exp, exp_lut"])
P("fast_exp is monotone",
  "x <= y implies fast_exp(x) <= fast_exp(y).",
  "every pair of arguments",
  "all pairs",
  [UT+": fast_exp"])
P("digamma recurrence and termination",
  "For positive arguments digamma terminates and satisfies digamma(x) = digamma(x+1) - 1/x exactly whenever x < 7; a zero or negative-integer argument leads to a division by zero.",
  "every positive real argument",
  "all arguments",
  [UT+": digamma"])
P("reshape_into is a lossless column-major copy",
  "Reshaping a matrix into a vector of the right length and back gives the same matrix; entry (r, c) is at position c*rows + r.",
  "every shape and content",
  "all shapes",
  [UT+": reshape_into"])
P("product_of_nonzeros and the division that leaves zeros out",
  "product_of_nonzeros(x) is the product of the non-zero entries, is never zero, equals the ordinary product when no entry is zero, and does not depend on the layout; CwiseScalarDivideByMatrix gives zero where the entry is zero and the quotient elsewhere.",
  "every matrix over a field",
  "all matrices",
  [UT+": product_of_nonzeros", UT+": CwiseScalarDivideByMatrix"])
# ---- E step -----------------------------------------------------------
P("Topic responsibilities are distributions",
  "In the variational parameters returned by the unsupervised, fast-supervised, multinomial and correspondence E steps, each column of phi is non-negative and sums to 1 for every word to which some topic gives positive probability; for a word with zero probability in all topics the column is all zero (once at least one iteration ran). For a document without words the fast supervised step returns uniform columns.",
  "every document, every non-negative model, every iteration limit and tolerance",
  "all documents and models",
  [EM+"UnsupervisedEStep.cpp: doc_e_step", ESU+": compute_unsupervised_phi, compute_supervised_approximate_phi, compute_supervised_multinomial_phi, compute_supervised_correspondence_phi"])
P("Gamma accounts for every word: mass conservation",
  "For the variational parameters returned by every E step, sum(gamma) = sum(alpha) + number of words of the document, provided every word of the document has positive probability in some topic; in general it is at most that.",
  "every document, model, iteration limit and tolerance",
  "all documents and models",
  [ESU+": compute_gamma, compute_supervised_phi_gamma", EM+"UnsupervisedEStep.cpp: doc_e_step"])
P("Gamma is alpha plus the expected topic counts",
  "The returned pair satisfies gamma_k = alpha_k + sum_n X_n phi_{k,n} for every topic (in particular gamma >= alpha), for every E step and every stopping point, including the incremental update of the supervised E step.",
  "every document, model, iteration limit and tolerance",
  "all documents and models",
  [ESU+": compute_gamma, compute_supervised_phi_gamma", EM+"SupervisedEStep.cpp: doc_e_step"])
P("The E step respects its iteration limit and stops at the first converged iterate",
  "doc_e_step returns the j-th iterate of its update, where j is the least number such that j equals the iteration limit or the mean absolute change of gamma between iterates j-1 and j (for j = 0: between the zero vector and the initial gamma) is below the tolerance. This concerns all five E steps.",
  "every document, model, limit and tolerance",
  "all inputs",
  [EM+"AbstractEStep.cpp: converged", EM+"UnsupervisedEStep.cpp: doc_e_step"])
P("Absent words do not matter",
  "The gamma computed for a document depends only on the columns of beta of words that occur in the document; changing, adding or removing vocabulary entries with zero count leaves gamma unchanged.",
  "every document and pair of models agreeing on the words present",
  "all documents and models",
  [ESU+": compute_gamma, compute_unsupervised_phi", EM+"UnsupervisedEStep.cpp: doc_e_step"])
P("Empty documents are handled",
  "For a document without words the unsupervised E step returns gamma = alpha and finite phi; the fast supervised E step too.",
  "every model, limit and tolerance",
  "all models",
  [EM+"UnsupervisedEStep.cpp: doc_e_step", EM+"FastSupervisedEStep.cpp: doc_e_step", ESU+": compute_supervised_approximate_phi"])
P("Reporting likelihood does not change the result",
  "The compute_likelihood parameter (percentage of documents for which the likelihood is reported) does not influence the returned variational parameters. This concerns the unsupervised, supervised, fast-supervised, multinomial and correspondence E steps.",
  "every document, model and parameter values",
  "all parameter values",
  [EM+"MultinomialSupervisedEStep.cpp: doc_e_step", EM+"UnsupervisedEStep.cpp: doc_e_step"])
P("Supervised E step: h is the documented product",
  "The vector h used in the supervised phi update equals sum_y (prod over the other words of phi_l^T exp(X_l/N eta_y)) exp(X_n/N eta_y), and the running products are kept consistent while phi changes; words absent from the document contribute a factor 1.",
  "every document, model with stochastic phi",
  "all documents and models",
  [ESU+": compute_h, compute_supervised_phi_gamma"])
P("Fast supervised E step follows its documented update",
  "phi_{k,n} is proportional to beta_{k,n} exp(psi(gamma_k) + C (eta'_{k,y} - sum_c softmax_c eta'_{k,c})) with eta' = eta / max(eta) when max(eta) > 0 and eta' = eta otherwise; with eta = 0 the step coincides with the unsupervised one.",
  "every document, model and C",
  "all inputs",
  [ESU+": compute_supervised_approximate_phi", EM+"FastSupervisedEStep.cpp: doc_e_step, get_weight"])
P("Weight schedule of the fast supervised step",
  "With CWeightType::Constant the supervised weight is C in every epoch, with ExponentialDecay it is C^i in epoch i (counting from 0), unaffected by how many documents an epoch has.",
  "every C and number of epochs",
  "all histories of epochs",
  [EM+"FastSupervisedEStep.cpp: get_weight, e_step"])
P("Semi-supervised routing",
  "SemiSupervisedEStep gives exactly the result of the unsupervised step on documents with negative class and of the supervised step otherwise, and forwards each event of either child exactly once to its own dispatcher; e_step reaches both children. (The two children are different objects.)",
  "every history of documents",
  "all histories",
  [EM+"SemiSupervisedEStep.cpp: doc_e_step, e_step, SemiSupervisedEStep"])
# ---- M step -----------------------------------------------------------
P("Unsupervised M step: beta is the normalised expected counts",
  "After doc_m_step on any documents (in any order) and m_step, beta_{k,w} = sum_d X_{d,w} phi_{d,k,w} / sum over words of the same; every row is a distribution, and it is the maximiser of the expected complete log likelihood over row-stochastic matrices.",
  "every finite sequence of documents giving each topic positive mass",
  "all sequences",
  [EM+"UnsupervisedMStep.cpp: doc_m_step, m_step"])
P("Epochs are independent in the batch M steps",
  "What m_step computes depends only on the documents given since the previous m_step, never on earlier epochs, however many documents each epoch had.",
  "every history of doc_m_step and m_step calls",
  "all histories",
  [EM+"UnsupervisedMStep.cpp", EM+"FastSupervisedMStep.cpp: doc_m_step, m_step", EM+"SupervisedMStep.cpp", EM+"MultinomialSupervisedMStep.cpp", EM+"CorrespondenceSupervisedMStep.cpp"])
P("The unsupervised M step keeps the model valid",
  "If beta is a row-stochastic matrix of the model's shape before partial_fit / m_step it is one after it, whatever documents the epoch contained (including none, or only empty documents).",
  "every history",
  "degenerate histories",
  [EM+"UnsupervisedMStep.cpp: m_step"])
P("Multinomial and correspondence M steps give distributions",
  "After m_step each row of eta with mass (every row when mu > 1) sums to 1 and is non-negative, strictly positive when mu > 1, each row of beta with mass sums to 1, and rows without mass are zero rather than NaN; the reported value is the sum of E_q[log p(y|z,eta)] of the epoch's documents.",
  "every history whose epoch has at least one document, and mu >= 1",
  "all histories",
  [EM+"MultinomialSupervisedMStep.cpp", EM+"CorrespondenceSupervisedMStep.cpp"])
P("Supervised M steps train on exactly the documents of the epoch",
  "The optimisation problem built by FastSupervisedMStep/SupervisedMStep::m_step contains, in order of arrival, one sample (the normalised gamma - alpha, or for SupervisedMStep the mean and the variance of the topics of the words, with the label) per document given since the previous m_step, and nothing else, for any sequence of epochs of varying sizes.",
  "every history of doc_m_step and m_step calls; for SupervisedMStep with documents that have words",
  "buffers are grown and trimmed across epochs; all histories",
  [EM+"FastSupervisedMStep.cpp: doc_m_step, m_step", EM+"SupervisedMStep.cpp: doc_m_step, m_step"])
P("Unlabelled documents influence only the topics",
  "In SemiSupervisedMStep documents with negative class contribute to beta like any other document and have no influence on the eta problem; an epoch with no labelled document at all is undefined behaviour.",
  "every history",
  "all histories",
  [EM+"SemiSupervisedMStep.cpp: doc_m_step", MLR+": MultinomialLogisticRegression"])
P("Online M step updates after every minibatch",
  "FastOnlineSupervisedMStep updates the model exactly floor(n / minibatch_size) times during n documents, carrying incomplete batches over epochs (the per-epoch m_step call is a no-op); each update emits one MaximizationProgressEvent and is a momentum step along the gradient of the objective on exactly the documents of the minibatch, and beta stays row-stochastic when beta_weight is in [0,1] and every topic received words in the first minibatch.",
  "every history and minibatch size >= 1",
  "all histories",
  [EM+"FastOnlineSupervisedMStep.cpp: doc_m_step, m_step"])
P("Online minibatch statistics",
  "The topic update of a minibatch uses only the word statistics of that minibatch, and the class weights passed to the constructor weigh the samples of the eta update.",
  "every history",
  "all histories",
  [EM+"FastOnlineSupervisedMStep.cpp: m_step"])
# ---- optimisation -----------------------------------------------------
P("Armijo line search returns the largest acceptable step",
  "If the directional decrease is positive and the search returns, the accepted step a is the largest of 1, tau, tau^2, ... with f(x - a p) <= f(x) - a*beta*<g,p>, x is moved exactly by a*p and the value returned is f at the new x.",
  "every function, point, direction, 0 < tau < 1",
  "all functions",
  [GD+": ArmijoLineSearch::search"])
P("Armijo line search terminates",
  "For a differentiable objective, direction = gradient, 0 < beta < 1 and 0 < tau < 1 the backtracking loop terminates.",
  "every differentiable objective and point",
  "all functions and points",
  [GD+": ArmijoLineSearch::search"])
P("Gradient descent never increases the objective and respects its limit",
  "With Armijo search on the exact gradient, GradientDescent::minimize never increases the objective; in the supervised M steps it performs at most m_step_iterations steps and reports, per call, the objective before each decision (at most m_step_iterations + 1 events, non-decreasing log-likelihoods).",
  "every problem, starting point, limit and tolerance",
  "all problems",
  [GD+": GradientDescent::minimize", EM+"FastSupervisedMStep.cpp: m_step"])
P("Logistic regression: gradient is the derivative of value",
  "For MultinomialLogisticRegression the matrix computed by gradient() is the gradient of the function computed by value(), at every eta; value() is the documented objective and is >= 0 for non-negative weights and penalty.",
  "every dataset, weights, penalty and eta",
  "finite-difference tests sample points",
  [MLR+": value, gradient"])
P("Second-order approximation: gradient is the derivative of value",
  "For SecondOrderLogisticRegressionApproximation with positive semidefinite variances the matrix computed by gradient() is the gradient of value() at every eta, and value() >= 0.",
  "every dataset, variances, weights, penalty and eta",
  "finite-difference tests sample points",
  [SOL+": value, gradient"])
P("Default class weights balance the classes",
  "The weights used when none are given are N/(C*n_c): every class present has total weight N/C; and when all classes are present the total is N. Weights of absent classes are never used. create_class_weights gives the same numbers.",
  "every label vector of non-negative labels",
  "all label vectors",
  [MLR+": MultinomialLogisticRegression", SOL, AP+"utils.cpp: create_class_weights"])
# ---- LDA facade -------------------------------------------------------
P("predict is the arg max of the decision function",
  "predict(X)[d] is the class index with the largest score of column d (the first on ties), scores are eta^T E[z-bar] with E[z-bar] summing to 1, so a prediction is always a valid class index; transform_predict returns the pair (transform, predict) computed from one transform.",
  "every X and model for which no document is empty",
  "all inputs",
  [LDA+": LDA::decision_function, LDA::predict, LDA::transform_predict"])
P("Decision function of an empty document",
  "decision_function and predict are well defined (finite scores) for every document, including documents without words.",
  "every model with an empty document",
  "degenerate inputs",
  [LDA+": LDA::decision_function"])
# ---- builder ----------------------------------------------------------
P("The builder refuses unusable models",
  "Converting an LDABuilder to LDA throws exactly when topics were never initialised, or when the last chosen E or M step is one of the supervised ones and eta was never initialised; otherwise it yields an LDA with the last-set iterations, workers, steps and parameters.",
  "every sequence of builder calls",
  "all call sequences",
  [BH+": operator LDA, set_e, set_m, set_*_step", BC+": initialize_eta_zeros, initialize_eta_uniform"])
P("Initial topics are distributions",
  "After initialize_topics_seeded every row of beta is strictly positive and sums to 1, whatever documents the random generator picks; after initialize_topics_random every row sums to 1 and is non-negative unless all its draws are zero; alpha is constant 1/topics.",
  "every corpus, number of topics, seed",
  "all random streams",
  [BC+": initialize_topics_seeded, initialize_topics_random"])
P("LDAs built from one builder are independent",
  "Two LDA objects obtained from the same builder do not influence each other: training one leaves the parameters of the other unchanged, as the documented 'brand new LDA instance' promises; the same holds for a model passed to initialize_*_from_model.",
  "every training history of the two objects",
  "aliasing shows only in particular uses",
  [BH+": operator LDA", LDA+": LDA::LDA"])
# ---- applications -----------------------------------------------------
P("Snapshots are written every n epochs under distinct names",
  "SnapshotEvery(path, n) writes a snapshot exactly after epochs n, 2n, 3n, ..., of the parameters of that epoch, under path_ followed by the epoch number with at least three digits; different epochs never share a file name.",
  "every n >= 1 and number of epochs",
  "all histories; name collisions",
  [AP+"SnapshotEvery.cpp: on_event, snapshot"])
P("Reported per-document likelihood is the mean",
  "The number EpochProgress prints at the end of an epoch is the mean of the finite negative likelihoods reported during that epoch, and epochs do not influence each other.",
  "every sequence of events",
  "all sequences",
  [AP+"EpochProgress.cpp: on_event", "include/applications/EpochProgress.hpp: EpochProgress"])
P("Continuing from an unsupervised model loads that model",
  "`--continue_from_unsupervised=M` starts training from the topics of model file M with a fresh zero eta.",
  "every command line with --continue_from_unsupervised and without --continue",
  "the branch has no test",
  [AP+"slda.cpp: create_lda_for_train", AP+"fslda.cpp: add_initialization_options"])
P("Reported ELBO",
  "The value computed for a document by compute_unsupervised_likelihood is the evidence lower bound of the documented model for the given variational parameters. (up to the 1e-44 guard inside the logarithms).",
  "every document, model and variational parameters",
  "all inputs",
  [ESU+": compute_unsupervised_likelihood"])
P("The phi update maximises the bound",
  "With exact exp and digamma values, the phi computed by the unsupervised update maximises, over all column-stochastic matrices, the part of the evidence lower bound that depends on phi for the given gamma.",
  "every model, gamma and competitor phi",
  "optimality against all competitors",
  [ESU+": compute_unsupervised_phi"])

P("Listeners may call back into the dispatcher that notifies them",
  "A listener may add or remove listeners (including itself) or dispatch events from inside on_event without undefined behaviour and without changing what the other listeners are told about the event being processed.",
  "every set of listeners and every behaviour of their callbacks",
  "all callback behaviours; iterator invalidation is not reliably observable",
  ["src/ldaplusplus/events/Events.cpp: EventDispatcher::dispatch, ThreadSafeEventDispatcher::process_events"])
P("Model parameters are never written while a worker reads them",
  "During partial_fit the model parameters are not modified while any worker thread is executing the expectation step of a document, so the E step of each document sees one consistent model.",
  "every reachable state, every M step, corpus size and number of workers",
  "data races depend on the schedule and are not reliably observable",
  ["src/ldaplusplus/LDA.cpp: LDA::partial_fit, LDA::doc_e_step_worker", "src/ldaplusplus/em/FastOnlineSupervisedMStep.cpp: doc_m_step"])
P("fit(X), transform and predict work with every E step the builder offers",
  "LDA::fit(X), LDA::transform(X) and LDA::transform_predict(X), whose documents carry no label, are free of undefined behaviour (no invalid down-cast of a document, no out-of-range column access) for every E step and M step the builder can configure.",
  "every combination of E step, M step and entry point",
  "undefined behaviour is not reliably observable; combinations are not covered",
  ["src/ldaplusplus/LDA.cpp: LDA::fit, LDA::transform, LDA::get_corpus", "src/ldaplusplus/em/FastSupervisedEStep.cpp: doc_e_step", "src/ldaplusplus/em/SupervisedEStep.cpp: doc_e_step", "src/ldaplusplus/em/MultinomialSupervisedEStep.cpp: doc_e_step"])

P("Round trip on big-endian hosts",
  "On a big-endian machine, load of what save wrote gives back the same matrix.",
  "every matrix, on a big-endian machine",
  "no big-endian machine in the test setup; all matrices",
  ["include/ldaplusplus/NumpyFormat.hpp: swap_endianess, NumpyInput::operator>>"])
P("Files that are not NPY files are rejected",
  "Loading a file that does not start with the NPY magic string fails with an exception.",
  "every byte stream whose first six bytes are not the magic string",
  "all byte streams",
  ["include/ldaplusplus/NumpyFormat.hpp: NumpyInput::operator>>"])
P("Reported likelihoods are computed from initialised memory",
  "Whatever the iteration limit, tolerance and document, the likelihood the supervised E step reports is computed from values it has assigned, never from uninitialised or out-of-range memory.",
  "every document, model, limit, tolerance and reporting probability",
  "whether an uninitialised vector is read depends on the values of alpha, the document length and the tolerance, and reading it usually goes unnoticed",
  ["src/ldaplusplus/em/SupervisedEStep.cpp:doc_e_step", "src/ldaplusplus/e_step_utils.cpp:compute_supervised_likelihood"])
P("Reported supervised likelihood",
  "The number reported by the supervised and fast-supervised E steps is the unsupervised bound plus the expected score of the document's class minus log sum_c prod over the words of phi_l^T exp(X_l/N eta_c), independently of which word is used to evaluate it.",
  "every document with words, model, and every stopping point",
  "the running products are divided and multiplied while phi changes, so that an error shows only for particular word orders and counts",
  ["src/ldaplusplus/e_step_utils.cpp:compute_supervised_likelihood", "src/ldaplusplus/e_step_utils.cpp:compute_h"])

P("A line search returns the value at the position it moved to",
  "LineSearch::search returns the function value at the final x0, as documented, for every direction given (\"which can be different than the gradient to account for Newton methods\").",
  "every function, position, gradient and direction",
  "all functions and directions",
  ["include/ldaplusplus/optimization/GradientDescent.hpp: LineSearch::search, ConstantLineSearch::search, ArmijoLineSearch::search"])
P("The progress callback is told the state of the optimisation",
  "Every call of the callback given to GradientDescent receives the objective at the current position, the infinity norm of the gradient there, and the number of steps made so far.",
  "every problem, starting point and callback",
  "all problems; an uninitialised norm usually goes unnoticed",
  ["include/ldaplusplus/optimization/GradientDescent.hpp: GradientDescent::minimize"])
P("The logistic objective has no spurious minima",
  "For non-negative class weights and penalty, an eta at which the matrix computed by MultinomialLogisticRegression::gradient is zero is a global minimiser of value(), and the only one when the penalty is positive.",
  "every dataset, weights, penalty and eta",
  "a statement about all matrices",
  ["src/ldaplusplus/optimization/MultinomialLogisticRegression.cpp: value, gradient"])

P("SupervisedMStep accepts documents of any length",
  "doc_m_step of SupervisedMStep is defined for every document with labels in range, however many words it has.",
  "every history and document",
  "the square of the number of words is computed in int; only documents of more than 46340 words overflow it",
  ["src/ldaplusplus/em/SupervisedMStep.cpp: doc_m_step"])
P("A document without words does not prevent training",
  "A document without words in an epoch does not prevent the supervised M steps from training the classifier on the other documents: eta stays finite and the document has at most a constant influence on the objective.",
  "every history containing empty documents",
  "all histories; a NaN parameter is usually noticed only in the results",
  ["src/ldaplusplus/em/SupervisedMStep.cpp: doc_m_step", "src/ldaplusplus/em/FastSupervisedMStep.cpp: doc_m_step, m_step", "src/ldaplusplus/em/FastOnlineSupervisedMStep.cpp: doc_m_step, m_step"])

P("The builder yields parameters whose sizes fit together",
  "An LDA obtained from a builder has as many entries in alpha and (if eta is initialised) as many rows in eta as beta has topics, whatever the order of the initialize_* calls.",
  "every sequence of builder calls",
  "the order of calls and the sizes are unbounded; tests use one order",
  ["include/ldaplusplus/LDABuilder.hpp: operator LDA, initialize_topics_from_model, initialize_eta_from_model",
   "src/ldaplusplus/LDABuilder.cpp: initialize_topics_random, initialize_eta_zeros"])

P("Progress of the expectation step is reported per epoch",
  "ExpectationProgress(n) prints, in each epoch, exactly the multiples of n up to the number of documents of that epoch; earlier epochs have no influence.",
  "every n >= 1, every number of epochs and every number of documents per epoch",
  "all histories of events",
  ["src/applications/ExpectationProgress.cpp: on_event"])
P("The applications start from what the command line asks for",
  "`train --continue=N` starts from exactly the parameters in file N (the unsupervised application: from its topics); without it training starts from --topics word distributions, alpha = 1/topics and, in the supervised applications, a zero eta with one column per label up to the largest; `transform` uses the parameters of MODEL with the unsupervised expectation step. Iterations, workers and the steps are those of the command line. If the file cannot be read the program stops.",
  "every command line without --continue_from_unsupervised, every model file, data file and seed",
  "all command lines and files",
  ["src/applications/slda.cpp: create_lda_for_train, create_lda_for_transform", "src/applications/fslda.cpp: add_initialization_options, create_lda_for_transform", "src/applications/lda.cpp: create_lda_for_train, create_lda_for_transform"])
P("Documents without a label can be passed through fit(X, y)",
  "For the semi-supervised steps a negative label marks a document as unlabelled; LDA::fit(X, y) and partial_fit(X, y) accept a y that contains such labels, and the documents are processed by the unsupervised steps.",
  "every X, every y with negative entries, every pair of child steps",
  "all label vectors; the write out of range in the constructor of the corpus is undefined behaviour and rarely seen",
  ["src/ldaplusplus/Document.cpp: EigenClassificationCorpus::EigenClassificationCorpus", "src/ldaplusplus/em/SemiSupervisedEStep.cpp: doc_e_step", "src/ldaplusplus/em/SemiSupervisedMStep.cpp: doc_m_step"])
P("Every E step can be combined with every M step",
  "With labelled documents (labels in range) every E step of the library can be used together with every M step without undefined behaviour, for any sequence of documents.",
  "every pair of E step and M step, every sequence of documents",
  "undefined behaviour by an invalid down-cast is not reliably observable; the pairs and the histories are too many",
  ["src/ldaplusplus/em/CorrespondenceSupervisedMStep.cpp: doc_m_step", "include/ldaplusplus/LDABuilder.hpp: set_e, set_m"])
P("Training can be interrupted and continued",
  "Fitting for a number of epochs, taking the model, and fitting it for more epochs with an LDA that has new E and M steps with the same settings gives the same model as fitting for all the epochs at once, and undefined behaviour occurs in the one case exactly if it does in the other.",
  "every E step and M step, every corpus, number of workers, schedule, shuffle and split of the epochs",
  "must hold for all corpora, schedules and numbers of epochs before and after the interruption; the steps carry state from epoch to epoch that a test with one epoch cannot see",
  ["src/ldaplusplus/LDA.cpp: partial_fit", "src/ldaplusplus/em/UnsupervisedMStep.cpp: m_step", "src/ldaplusplus/em/FastSupervisedMStep.cpp: m_step", "src/ldaplusplus/em/FastOnlineSupervisedMStep.cpp: doc_m_step", "src/ldaplusplus/em/FastSupervisedEStep.cpp: get_weight"])
P("digamma is accurate",
  "In exact arithmetic digamma(x) differs from the digamma function (the logarithmic derivative of the Gamma function) by less than 6e-11 for every x where the latter is defined.",
  "every real number that is not zero or a negative integer",
  "a statement about all real arguments of a transcendental function; sampling cannot bound the error between the samples",
  ["include/ldaplusplus/utils.hpp: digamma"])
P("The gamma update maximises the bound",
  "For given responsibilities phi, gamma = alpha + sum_n X_n phi_n, which every E step computes, maximises the evidence lower bound over all positive gamma.",
  "every document, prior, topics, responsibilities and every competing gamma",
  "an optimum over a continuum of competitors for all inputs",
  ["src/ldaplusplus/e_step_utils.cpp: compute_unsupervised_gamma", "src/ldaplusplus/em/UnsupervisedEStep.cpp: doc_e_step"])
P("Iterating the E step never makes the bound worse",
  "In the unsupervised E step every iteration leaves the evidence lower bound of the document at least as large as before, so that more iterations or a smaller tolerance never give a worse result; the approximations in fast_exp and digamma cost at most 0.4% of the largest digamma value per word and iteration.",
  "every document, model, number of iterations, tolerance and intermediate state",
  "monotonicity along all executions of an iterative algorithm over the reals",
  ["src/ldaplusplus/em/UnsupervisedEStep.cpp: doc_e_step", "src/ldaplusplus/e_step_utils.cpp: compute_unsupervised_phi, compute_unsupervised_gamma"])
P("The reported likelihood is a lower bound of the log-probability",
  "The number that the unsupervised E step reports for a document is at most the logarithm of the probability of the document under latent Dirichlet allocation with the parameters of the model (up to the 1e-44 guard inside the logarithms).",
  "every document, model, number of iterations and tolerance",
  "relates a computed number to an integral over all topic mixtures, for all documents",
  ["src/ldaplusplus/e_step_utils.cpp: compute_unsupervised_likelihood", "src/ldaplusplus/em/UnsupervisedEStep.cpp: doc_e_step"])
P("The numbering of the topics is arbitrary",
  "Renumbering the topics of a model (prior, topics and class parameters together) renumbers gamma and phi of every E step in the same way and leaves the reported likelihood as it is.",
  "every permutation of the topics, every document, class, model, setting and E step",
  "a symmetry under all permutations for all inputs",
  ["src/ldaplusplus/em/UnsupervisedEStep.cpp: doc_e_step", "src/ldaplusplus/em/SupervisedEStep.cpp: doc_e_step", "src/ldaplusplus/em/FastSupervisedEStep.cpp: doc_e_step", "src/ldaplusplus/em/MultinomialSupervisedEStep.cpp: doc_e_step", "src/ldaplusplus/em/CorrespondenceSupervisedEStep.cpp: doc_e_step"])
P("The numbering of the vocabulary is arbitrary",
  "Renumbering the words of the vocabulary (in the document and in the topics together) does not change gamma nor the reported likelihood of any E step, and renumbers phi in the same way.",
  "every permutation of the vocabulary, every document, class, model, setting and E step",
  "a symmetry under all permutations for all inputs; the one step that breaks it visits the words one after the other",
  ["src/ldaplusplus/em/UnsupervisedEStep.cpp: doc_e_step", "src/ldaplusplus/em/SupervisedEStep.cpp: doc_e_step", "src/ldaplusplus/em/FastSupervisedEStep.cpp: doc_e_step", "src/ldaplusplus/em/MultinomialSupervisedEStep.cpp: doc_e_step", "src/ldaplusplus/em/CorrespondenceSupervisedEStep.cpp: doc_e_step"])
P("Without influence of the class the topics are those of plain LDA",
  "If the class can have no influence, i.e. the weight of the supervision is zero or the class parameters do not distinguish classes (fast step) or topics (correspondence and multinomial steps), then the E step computes the topic proportions and responsibilities that the unsupervised E step computes with the same number of iterations and the same threshold for convergence.",
  "every document, class, model without influence of the class, setting",
  "an equivalence of two iterative programs on all inputs",
  ["src/ldaplusplus/em/FastSupervisedEStep.cpp: doc_e_step", "src/ldaplusplus/em/CorrespondenceSupervisedEStep.cpp: doc_e_step", "src/ldaplusplus/em/MultinomialSupervisedEStep.cpp: doc_e_step", "src/ldaplusplus/e_step_utils.cpp: compute_supervised_approximate_phi, compute_supervised_multinomial_phi, compute_supervised_correspondence_phi"])
P("Results can overtake each other only by the number of workers",
  "In partial_fit and transform the results of the documents reach the maximisation step (or the caller's matrix) in an order in which document i (counted from zero, in the order of the shuffled corpus) comes at position p only if i < p + W for W workers; every such order can occur, and with one worker the order is that of the corpus.",
  "every number of documents and workers, every schedule of the threads, every order",
  "which orders can occur depends on the schedule; a test observes some of them and cannot rule out or force the others",
  ["src/ldaplusplus/LDA.cpp: LDA::partial_fit, LDA::transform, LDA::doc_e_step_worker, LDA::create_worker_pool"])
P("Floating point errors of an epoch are bounded",
  "In floating point arithmetic with unit roundoff u, after partial_fit with the unsupervised maximisation step every word probability of a topic is within a relative (2D + V + 5)u of the exact value for the results of the E step, hence within (4D + 2V + 10)u for any two schedules, numbers of workers and shuffles; the probabilities of a topic sum to one within (V + 1)u; a normalised column of responsibilities sums to one within (K + 1)u and gamma conserves the number of words within (V + 2 + K + 1)u.  D documents, V words, K topics.",
  "every corpus, model, result of the E step, schedule, number of workers, shuffle, order of the additions in a sum, and rounding function with relative error u < 1",
  "an error bound over all inputs and all schedules; the errors of single runs say nothing about the largest",
  ["src/ldaplusplus/em/UnsupervisedMStep.cpp: UnsupervisedMStep::doc_m_step, UnsupervisedMStep::m_step", "include/ldaplusplus/utils.hpp: normalize_cols, sum_cols_scaled", "src/ldaplusplus/e_step_utils.cpp: compute_unsupervised_gamma", "src/ldaplusplus/LDA.cpp: LDA::partial_fit"])
P("Training is reproducible bit for bit",
  "Training twice from the same model on the same corpus with the same seeds gives identical parameters.",
  "every corpus, model, number of workers, pair of schedules, number format",
  "the differences depend on the schedule of the worker threads, which tests do not control",
  ["src/ldaplusplus/LDA.cpp: LDA::partial_fit", "src/ldaplusplus/em/UnsupervisedMStep.cpp: UnsupervisedMStep::doc_m_step"])
P("Iterating the supervised E step never makes its bound worse",
  "Allowing the supervised E step more iterations or asking for a smaller change never makes the supervised evidence lower bound of the result (that of the topic model, plus the expected score of the class, minus the logarithm of the expected normaliser) worse.",
  "every document, class, model, number of fixed point iterations, pair of iteration limits and tolerances",
  "monotonicity of an iterative optimiser on all inputs; the examples that break it need a repeated word and particular parameters",
  ["src/ldaplusplus/em/SupervisedEStep.cpp: doc_e_step", "src/ldaplusplus/e_step_utils.cpp: compute_supervised_phi_gamma"])
P("The likelihood that the multinomial and correspondence steps report is their bound",
  "When the likelihood is asked for, the multinomial and the correspondence E steps report the evidence lower bound of the document under their model at the variational parameters that they return (up to the 1e-44 guard inside the logarithms), plus the document's share, 1/D of it in a corpus of D documents, of the log-density of the class parameters under their Dirichlet prior.",
  "every document, class, model, setting, prior",
  "an identity between a computed number and a specification for all inputs; the prior's normaliser only shows with several topics",
  ["src/ldaplusplus/e_step_utils.cpp: compute_supervised_multinomial_likelihood, compute_supervised_correspondence_likelihood", "src/ldaplusplus/em/MultinomialSupervisedEStep.cpp: doc_e_step", "src/ldaplusplus/em/CorrespondenceSupervisedEStep.cpp: doc_e_step"])
P("Iterating the multinomial E step never makes its bound worse",
  "Allowing the multinomial E step more iterations or asking for a smaller change never makes the evidence lower bound of the multinomial model, with the class weighted by eta_weight, worse.",
  "every document, class, model, weight, pair of iteration limits and tolerances",
  "monotonicity of an iterative optimiser on all inputs",
  ["src/ldaplusplus/em/MultinomialSupervisedEStep.cpp: doc_e_step", "src/ldaplusplus/e_step_utils.cpp: compute_supervised_multinomial_phi"])
P("The correspondence E step improves a bound of the evidence",
  "The tau of the correspondence E step is a distribution over the words of the document, so that what the step computes is a lower bound of the log-probability of document and class, and more iterations never make it worse.",
  "every document, class, model, pair of iteration limits and tolerances",
  "a normalisation and a monotonicity over all documents and vocabularies; it only holds for documents that contain the whole vocabulary",
  ["src/ldaplusplus/em/CorrespondenceSupervisedEStep.cpp: doc_e_step", "src/ldaplusplus/e_step_utils.cpp: compute_supervised_correspondence_phi, compute_supervised_correspondence_tau"])
P("The M steps maximise the bound",
  "The topics (unsupervised, multinomial and correspondence M steps) and the class parameters (multinomial and correspondence M steps) that m_step assigns maximise the evidence lower bound, including the log-density of the class parameters under their Dirichlet prior, of the documents received since the last m_step at the variational parameters that were received with them.",
  "every history of calls, documents, variational parameters, alternative topics and class parameters",
  "a maximum over a continuum of alternatives, after any history",
  ["src/ldaplusplus/em/UnsupervisedMStep.cpp: doc_m_step, m_step", "src/ldaplusplus/em/MultinomialSupervisedMStep.cpp: doc_m_step, m_step", "src/ldaplusplus/em/CorrespondenceSupervisedMStep.cpp: doc_m_step, m_step", "include/ldaplusplus/em/CorrespondenceSupervisedMStep.hpp: CorrespondenceSupervisedMStep"])
P("Every epoch of training improves the bound",
  "Training with the unsupervised steps never decreases the evidence lower bound of the corpus: neither does the M step at the variational parameters of the epoch, nor is the bound that the next epoch computes smaller than that of the epoch before.",
  "every corpus, model, setting of the E step, schedule, number of workers and shuffle",
  "monotonicity over all corpora, models and schedules; each epoch starts its variational parameters anew, so the usual argument for EM does not apply",
  ["src/ldaplusplus/LDA.cpp: LDA::partial_fit", "src/ldaplusplus/em/UnsupervisedEStep.cpp: doc_e_step", "src/ldaplusplus/em/UnsupervisedMStep.cpp: doc_m_step, m_step"])
P("Moving an LDA object between calls is unobservable",
  "A program that constructs an LDA object and moves it to other names between calls to fit, partial_fit and transform, any number of times, can be observed to do exactly what it does without the moves: the same events, calls of the M step, parameters and queued events. It is undefined exactly if it uses a name that has been moved from.",
  "every sequence of calls and moves, by any threads, for every corpus, model, number of iterations and workers, and every schedule of the workers in every call",
  "an equivalence over all programs and all interleavings of their calls",
  ["src/ldaplusplus/LDA.cpp: LDA::LDA(LDA &&), LDA::fit, LDA::partial_fit, LDA::transform", "include/ldaplusplus/LDA.hpp: LDA"])
P("No event is lost when other threads call",
  "Over any sequence of calls, each made by any thread: every call delivers the expectation progress event of each of its documents exactly once before it returns; every epoch event is delivered exactly once, perhaps in a later call, or is still queued; events queued by earlier calls are delivered before those of later calls; and nothing is queued after partial_fit by the thread that built the object or after transform of at least one document by any thread.",
  "every sequence of calls to partial_fit and transform, calling threads, corpora, M steps and schedules",
  "conservation over all histories and interleavings; with a foreign thread the events of the end of an epoch stay in the queue when the call returns",
  ["src/ldaplusplus/events/Events.cpp: SameThreadEventDispatcher, ThreadSafeEventDispatcher", "src/ldaplusplus/LDA.cpp: LDA::partial_fit, LDA::transform"])
P("The class priors of a corpus are the frequencies of its labels, in floating point",
  "For a classification corpus the prior of every class is the fraction of the documents with that label, up to the error of one division, although the counts, their sum and the quotients are computed in single precision.",
  "every vector of nonnegative labels, precision of at least two bits, order of the sum and way of dividing an array by a number",
  "the statement fails only for corpora of more than 16 million documents, which no unit test builds",
  ["src/ldaplusplus/Document.cpp: EigenClassificationCorpus::EigenClassificationCorpus", "include/ldaplusplus/Document.hpp: EigenClassificationCorpus::get_prior"])
P("Which documents report their likelihood is determined by the seed",
  "When only a fraction of the documents is asked to report its likelihood, the documents that do are determined by the corpus, the seed and the fraction, not by the schedule of the workers; every document draws its own numbers from the shared generator, and no number is used twice.",
  "every corpus, model, generator, fraction, number of workers and numbers per draw, and every schedule, including calls of the generator by one worker between those of another",
  "the generator is shared by all workers; a test sees one interleaving",
  ["include/ldaplusplus/utils.hpp: ThreadSafePRNG", "include/ldaplusplus/em/AbstractEStep.hpp: AbstractEStep::get_prng", "src/ldaplusplus/em/UnsupervisedEStep.cpp: UnsupervisedEStep::doc_e_step", "src/ldaplusplus/LDA.cpp: LDA::doc_e_step_worker"])
P("The tolerance of the E steps is a relative one",
  "An E step stops before its iteration limit when, and only when, the relative change of the topic proportions gamma of the document falls below the tolerance, so that the same tolerance suits documents of every length.",
  "every step, model, document, tolerance and iteration limit",
  "whether an iteration more would have been made shows only for particular documents and tolerances; the relation between the two rules is a statement about all of them",
  ["include/ldaplusplus/em/AbstractEStep.hpp: AbstractEStep::converged", "src/ldaplusplus/em/AbstractEStep.cpp: AbstractEStep::converged", "include/ldaplusplus/em/UnsupervisedEStep.hpp: UnsupervisedEStep::UnsupervisedEStep", "src/ldaplusplus/em/UnsupervisedEStep.cpp: UnsupervisedEStep::doc_e_step"])
P("Arrays of every shape are loaded or refused",
  "A valid NPY file, whatever the number of dimensions and elements of the array, is either loaded with the shape that it has or refused with an exception; a matrix without elements can be saved and loaded again.",
  "every shape, element type, order and content, on little-endian hosts",
  "the arrays in question have no element at all or more than 2^31",
  ["include/ldaplusplus/NumpyFormat.hpp: operator>>", "include/ldaplusplus/NumpyFormat.hpp: NumpyInput::operator Eigen::Matrix", "include/ldaplusplus/NumpyFormat.hpp: save"])
P("Gradient descent does not increase the objective in floating point",
  "In the floating point arithmetic of the parameter, minimize() with the Armijo line search ends at a position whose value is not above that of the position it was given, and every search ends.",
  "every objective with representable values, gradient, starting position, callback and parameters of the line search, in every precision with gradual underflow and every order of the sums",
  "the failure needs a value large against the squared norm of the gradient, where no step of the search is rejected and the value returned is not that of the position returned",
  ["include/ldaplusplus/optimization/GradientDescent.hpp: ArmijoLineSearch::search", "include/ldaplusplus/optimization/GradientDescent.hpp: GradientDescent::minimize", "src/ldaplusplus/em/FastSupervisedMStep.cpp: FastSupervisedMStep::m_step"])
P("The M step brings eta close to the best classifier",
  "After m_step() the documented objective at the new eta exceeds that at any other eta, in particular the optimum, by at most a bound inversely proportional to m_step_iterations if that many iterations were made, and by at most a bound proportional to m_step_tolerance if it stopped earlier.",
  "every history of calls, set of documents, number of classes and topics, starting eta, penalty, limit of iterations and tolerance (exact arithmetic)",
  "a test can compare with an optimum computed otherwise for some data sets; the bound must hold for all of them and all starting points, and a descent that stalls far from the optimum looks like one that has converged",
  ["src/ldaplusplus/em/FastSupervisedMStep.cpp: FastSupervisedMStep::m_step", "include/ldaplusplus/optimization/GradientDescent.hpp: GradientDescent::minimize", "include/ldaplusplus/optimization/GradientDescent.hpp: ArmijoLineSearch::search", "src/ldaplusplus/optimization/MultinomialLogisticRegression.cpp: MultinomialLogisticRegression::gradient"])
P("An exception inside a call leaves the object usable",
  "If partial_fit() or transform() is left by an exception of a listener, of the M step, of the corpus or of the creation of a thread, the object can be destroyed and used again, and later calls use only their own documents.",
  "every call, every place where code that is called can throw, every schedule, every sequence of later calls",
  "a test throws at some places and sees one schedule; which threads and jobs are left depends on the place and on the schedule, and the damage shows in later calls or in the destructor",
  ["src/ldaplusplus/LDA.cpp: LDA::partial_fit", "src/ldaplusplus/LDA.cpp: LDA::transform", "src/ldaplusplus/LDA.cpp: LDA::create_worker_pool", "src/ldaplusplus/LDA.cpp: LDA::destroy_worker_pool", "include/ldaplusplus/LDA.hpp: LDA::workers_"])
P("With enough iterations the E step ends because it has converged",
  "For every positive tolerance there is a number of iterations, depending only on the prior, the number of words and topics and the tolerance, within which the E step of a document reaches the tolerance; a larger limit of the iterations changes nothing.",
  "every model, every document, every tolerance, every limit of the iterations",
  "a test sees a few documents converge; that the iteration cannot go round in circles, and after how many iterations at the latest it ends, is a statement about all documents and models",
  ["src/ldaplusplus/em/UnsupervisedEStep.cpp: UnsupervisedEStep::doc_e_step", "src/ldaplusplus/em/MultinomialSupervisedEStep.cpp: MultinomialSupervisedEStep::doc_e_step", "src/ldaplusplus/em/FastSupervisedEStep.cpp: FastSupervisedEStep::doc_e_step", "include/ldaplusplus/em/AbstractEStep.hpp: AbstractEStep::converged", "include/ldaplusplus/utils.hpp: fast_exp, digamma"])
P("Every pass goes through the documents in a fresh random order",
  "shuffle() makes the ith document any of the documents with probability 1/size(), and every pass of training over the documents has its own order, all orders being equally likely and independent of the orders of other passes, provided that the numbers of the generator are.",
  "every number of documents, every position and document, every order before the shuffle, every number of passes, every sequence of orders",
  "a test sees single orders for one seed; fairness is a statement about all numbers the generator can deliver",
  ["include/ldaplusplus/Document.hpp: Corpus::shuffle", "src/ldaplusplus/Document.cpp: CorpusIndexes::shuffle", "src/ldaplusplus/LDA.cpp: LDA::get_corpus", "src/ldaplusplus/LDA.cpp: LDA::fit", "src/ldaplusplus/LDA.cpp: LDA::partial_fit"])
P("The numbering of the classes is arbitrary",
  "If the classes are renumbered, in the labels of the documents and in the initial eta, then every expectation step, every iteration of training and all of training give the same topics and the same variational parameters and likelihoods, eta with its classes renumbered, and the predictions renumbered.",
  "every renumbering, corpus, model, number of iterations, schedule, number of workers and shuffle, every history of calls of the online step",
  "a test compares two numberings of one corpus; independence of the numbering is about all of them and about all of training",
  ["src/ldaplusplus/em/FastSupervisedEStep.cpp: FastSupervisedEStep::doc_e_step", "src/ldaplusplus/em/SupervisedEStep.cpp: SupervisedEStep::doc_e_step", "src/ldaplusplus/em/FastSupervisedMStep.cpp: FastSupervisedMStep::m_step", "src/ldaplusplus/em/SupervisedMStep.cpp: SupervisedMStep::m_step", "src/ldaplusplus/em/FastOnlineSupervisedMStep.cpp: FastOnlineSupervisedMStep::doc_m_step", "include/ldaplusplus/optimization/MultinomialLogisticRegression.hpp: MultinomialLogisticRegression", "src/ldaplusplus/LDA.cpp: LDA::predict"])
P("The numbering of the topics and of the vocabulary does not matter to training",
  "If the topics and the words of the vocabulary are renumbered, in the documents and in the initial model, then every maximisation step, every epoch and all of training give the model with topics and words renumbered in the same way, are defined in the same cases, and classify every document alike.",
  "every renumbering of the topics and the vocabulary, every corpus, model, number of iterations, schedule, number of workers and shuffle, every history of calls of the online step",
  "a test compares two numberings of one corpus; that no step of training singles out a topic or a word is about all numberings and all of training",
  ["src/ldaplusplus/em/UnsupervisedMStep.cpp: UnsupervisedMStep::doc_m_step, m_step", "src/ldaplusplus/em/FastSupervisedMStep.cpp: FastSupervisedMStep::m_step", "src/ldaplusplus/em/SupervisedMStep.cpp: SupervisedMStep::m_step", "include/ldaplusplus/optimization/SecondOrderLogisticRegressionApproximation.hpp: SecondOrderLogisticRegressionApproximation", "src/ldaplusplus/em/MultinomialSupervisedMStep.cpp: MultinomialSupervisedMStep::m_step", "src/ldaplusplus/em/CorrespondenceSupervisedMStep.cpp: CorrespondenceSupervisedMStep::m_step", "src/ldaplusplus/em/FastOnlineSupervisedMStep.cpp: FastOnlineSupervisedMStep::doc_m_step", "src/ldaplusplus/LDA.cpp: LDA::partial_fit, LDA::decision_function"])
P("predict is the arg max of transform(X)ᵀ·eta, as the guide says",
  "For every supervised model and every document with words, predict returns the class with the largest entry of eta transposed times the variational parameters that transform returns for the document.",
  "every model, document and number of classes",
  "a test predicts a few documents, for nearly all of which the two formulas agree; that they agree is about all models and documents",
  ["docs/site/getting-started.md: LDA facade", "src/ldaplusplus/LDA.cpp: LDA::decision_function, LDA::predict"])
P("Training completes, and the topics stay distributions over the words they knew",
  "If every topic of the initial model gives positive probability to some word of the corpus, the prior is positive, the labels are classes and the expectation step makes at least one iteration per document, then fit, for any number of iterations, workers and any shuffles, completes without undefined behaviour; afterwards alpha is unchanged, every topic is a probability distribution, and it gives positive probability to exactly those words of the corpus that it gave positive probability at the start. For the multinomial and correspondence models with smoothing above one the class probabilities stay positive and sum to one.",
  "every corpus, initial model, number of iterations and workers, schedule, shuffle, and all five batch maximisation steps with their expectation steps",
  "a test trains one corpus for a few iterations; that no number of iterations and no schedule ever makes a topic degenerate needs an invariant",
  ["src/ldaplusplus/LDA.cpp: LDA::fit, LDA::partial_fit", "src/ldaplusplus/em/UnsupervisedMStep.cpp: m_step", "src/ldaplusplus/em/FastSupervisedMStep.cpp: m_step", "src/ldaplusplus/em/SupervisedMStep.cpp: m_step", "src/ldaplusplus/em/MultinomialSupervisedMStep.cpp: m_step", "src/ldaplusplus/em/CorrespondenceSupervisedMStep.cpp: m_step"])
P("Training and transform are free of data races",
  "In a program that constructs an LDA object, calls fit, partial_fit and transform on it one after the other from one thread, and from other threads adds and removes listeners and dispatches events, no two threads access a memory location, one of them writing, without one access happening before the other.",
  "every sequence of calls, number of workers and documents, every program of the other threads and every interleaving of single memory accesses and lock operations",
  "a data race shows up in few of the interleavings if at all; its absence is a statement about all of them",
  ["src/ldaplusplus/LDA.cpp: partial_fit, transform, create_worker_pool, destroy_worker_pool, doc_e_step_worker, extract_vp_from_queue", "src/ldaplusplus/events/Events.cpp: ThreadSafeEventDispatcher, SameThreadEventDispatcher", "include/ldaplusplus/utils.hpp: ThreadSafePRNG", "src/ldaplusplus/em/FastOnlineSupervisedMStep.cpp: doc_m_step"])
P("Listeners never run on a worker thread",
  "However threads come and go, a listener of the LDA object's dispatcher is only run on the thread that constructed the object or on a thread that calls fit, partial_fit or transform, never on a worker; with all calls made on the constructing thread, on that thread only.",
  "every history of threads starting and ending, calls and events, and every way the system may hand out thread identifiers",
  "which identifier the system gives a new thread cannot be chosen in a test; the reuse that breaks the statement depends on the platform",
  ["src/ldaplusplus/events/Events.cpp: SameThreadEventDispatcher", "include/ldaplusplus/events/Events.hpp: SameThreadEventDispatcher", "src/ldaplusplus/LDA.cpp: LDA, create_worker_pool", "include/ldaplusplus/LDA.hpp: process_worker_events"])
P("Training never deadlocks",
  "With at least one worker, a sequence of calls of fit, partial_fit and transform always comes to its end, under any scheduling, while listeners call back into the dispatcher from inside a notification and other threads add listeners, remove them and dispatch events; no wake-up of the calling thread is lost.",
  "every number of workers and documents, every sequence of calls, every finite amount of callbacks and of requests by other threads, every schedule of the single lock operations, accesses and waits",
  "a lost wake-up or a cycle of locks shows only in rare interleavings of single lock operations",
  ["src/ldaplusplus/LDA.cpp: partial_fit, transform, doc_e_step_worker, extract_vp_from_queue, create_worker_pool, destroy_worker_pool", "src/ldaplusplus/events/Events.cpp: add_listener, remove_listener, dispatch, process_events"])
P("No E step mixes two models and no result is lost, at the level of single reads and writes",
  "The E step of a document reads the model parameters many times while other threads run, and the queues are read and written in separate steps. Still every document is used exactly once, with the result that the E step computes from one single state of the model, and the outcomes of a call (model, events, what is left in the object) are those of a program in which each critical section and each E step happens at once.",
  "every schedule of single lock operations, reads and writes of the queues and of the model, every number of workers and documents, every M step, every number of reads in the E step",
  "a torn read or a lost update shows only in rare interleavings",
  ["src/ldaplusplus/LDA.cpp: partial_fit, transform, doc_e_step_worker, extract_vp_from_queue", "src/ldaplusplus/events/Events.cpp: dispatch, process_events", "src/ldaplusplus/em/FastOnlineSupervisedMStep.cpp: doc_m_step"])
P("An interrupted training leaves no damaged model behind",
  "When a training of the applications is interrupted (power failure, kill, exception) or the disk refuses a write, then no other file is touched, the snapshots of the epochs before are complete, the old model under the name MODEL is there or replaced by the new one, and a file that was not completed is recognised when it is loaded.",
  "every moment at which the program can be interrupted, every pattern of writes that the disk refuses, every number of epochs and snapshots, every model",
  "a test interrupts at a few moments; the damaged files that load without an error come from particular ones",
  ["src/applications/lda_io.cpp: save_lda, load_lda", "src/applications/SnapshotEvery.cpp: snapshot, on_event", "src/applications/lda.cpp: main", "src/applications/slda.cpp: main", "src/applications/fslda.cpp: main", "include/ldaplusplus/NumpyFormat.hpp: operator<<, operator>>"])
P("transform writes the topics of every document, whatever the number of workers",
  "`lda transform MODEL DATA OUTPUT` (and the same of slda and fslda) leaves in OUTPUT a NumPy array with one row per topic and one column per document, column i being the topics of document i for the model in MODEL; the bytes do not depend on the number of workers or on the schedule; OUTPUT may be one of the files read; no other file changes; and if DATA or MODEL cannot be read, or do not fit together, the program says so and writes nothing.",
  "every pair of files, every number of workers, every schedule of the threads, every content of uninitialised memory, every expectation step",
  "a test transforms a few files under a few schedules; that the bytes are the same for every schedule and file is a statement about all of them",
  ["src/applications/lda.cpp: main, create_lda_for_transform", "src/applications/slda.cpp: main", "src/applications/fslda.cpp: main", "src/applications/lda_io.cpp: parse_input_data, load_lda", "src/ldaplusplus/LDA.cpp: LDA::transform", "include/ldaplusplus/NumpyFormat.hpp: save"])
P("train writes the model after the asked number of epochs",
  "`lda train DATA MODEL` (and slda train, fslda train) leaves in MODEL the parameters after exactly the asked number of epochs, each being the loop over the documents of DATA in the order of the file followed by the maximisation, and in the snapshots the parameters after the respective number of epochs, whatever the number of workers, the schedule and the shuffles; no other file changes; and if DATA cannot be read nothing is written.",
  "every data file, every start, every number of iterations and workers, every schedule and shuffle, every snapshot interval, every expectation step",
  "a test trains on one file under a few schedules; that files come out the same for all schedules and shuffles is a statement about all of them",
  ["src/applications/lda.cpp: main, create_lda_for_train", "src/applications/slda.cpp: main", "src/applications/fslda.cpp: main", "src/applications/lda_io.cpp: parse_input_data, save_lda", "src/applications/SnapshotEvery.cpp: on_event", "src/ldaplusplus/LDA.cpp: LDA::fit, LDA::partial_fit"])
P("The number of words of a document",
  "For every document the number of words the expectation step works with is the sum of the counts of the document, so that the shares of the words add up to one and the first topics of the document add up to the prior plus the words, in whatever order and grouping the counts are added.",
  "every vector of counts of every length, every order and grouping of the additions, additions in C++ and in packets",
  "a test has documents of a few words, added in the one order its machine uses; overflow needs more than 2^31 words, and a sum that is right in one order need not be in another",
  ["src/ldaplusplus/em/UnsupervisedEStep.cpp: UnsupervisedEStep::doc_e_step", "src/ldaplusplus/em/FastSupervisedEStep.cpp: FastSupervisedEStep::doc_e_step", "src/ldaplusplus/em/SupervisedEStep.cpp: SupervisedEStep::doc_e_step", "src/ldaplusplus/em/SupervisedMStep.cpp: SupervisedMStep::doc_m_step"])
P("No word of a document is lost to underflow",
  "With float and with double, every pass of the unsupervised expectation step accounts for every word of the document: the topics of the document add up to the prior plus the number of words, up to rounding, for every model and every number of topics.",
  "every document, every model, every number of topics and of passes, every order of additions, the formats float and double with their smallest and largest numbers",
  "a test has a few topics, for which nothing underflows; the words disappear silently only with many topics and short documents, and the sum has to hold for all models",
  ["src/ldaplusplus/e_step_utils.cpp: compute_unsupervised_phi, compute_gamma", "src/ldaplusplus/em/UnsupervisedEStep.cpp: UnsupervisedEStep::doc_e_step", "include/ldaplusplus/utils.hpp: fast_exp, digamma, normalize_cols", "src/ldaplusplus/LDABuilder.cpp: initialize_topics_random"])
P("Corpora show the caller's data as they are, documents keep what they were made from, and nothing is used after its end",
  "A corpus made from a matrix and labels gives training the documents as the matrix and labels are at the time of the call, each once and with its own label. A document that was handed out keeps its words and its class whatever the caller does afterwards, and get_corpus() of a document can be used as long as the document. No sequence of constructions, assignments, destructions, shuffles and calls makes the library use an object after its end or an index outside an array.",
  "every history of operations of the caller on any number of matrices, label vectors, corpora, documents and calls, including calls left by an exception",
  "use after the end of an object is often invisible in a test, and it depends on the order of all earlier constructions, assignments, destructions and failed calls",
  ["src/ldaplusplus/Document.cpp: EigenCorpus, EigenClassificationCorpus, EigenDocument, ClassificationDecorator, CorpusIndexes", "include/ldaplusplus/Document.hpp: EigenCorpus::X_, EigenClassificationCorpus::X_, y_, priors_", "src/ldaplusplus/LDA.cpp: LDA::partial_fit, LDA::doc_e_step_worker"])
P("The fast supervised step is defined and finite for every model of finite numbers",
  "For every document and every supervised model whose topics, priors and class weights are finite numbers, the fast supervised expectation step has no undefined behaviour (its exponential is never given NaN, which it would convert to an index into a table) and returns finite gamma and phi, after every number of passes, with float and with double.",
  "every document of at most 2^31 words, every model with up to 2^20 topics, words and classes, every order of additions in Eigen, every number of passes, float and double",
  "an overflow needs class weights that training reaches only for some data and some regularisation, and NaN in an index often reads some number nearby without a crash",
  ["src/ldaplusplus/e_step_utils.cpp: compute_supervised_approximate_phi, compute_gamma", "src/ldaplusplus/em/FastSupervisedEStep.cpp: FastSupervisedEStep::doc_e_step", "include/ldaplusplus/utils.hpp: fast_exp, normalize_cols, sum_cols_scaled"])
P("Words that no topic knows do no harm",
  "A document may hold words to which every topic gives probability zero (words that did not occur in the documents the topics were learnt from). For every valid model and every document each expectation step is then still defined and finite, and such words contribute nothing: gamma and phi are those of the document without them.",
  "every document, every model with positive priors and non-negative topics, every configuration of the expectation steps; for the supervised step also every floating point format, including infinities and NaN",
  "the corpora of tests are the ones the topics are learnt from, so every word has a topic; which words are unknown depends on how a user splits the data or continues from an earlier model",
  ["src/ldaplusplus/e_step_utils.cpp: compute_unsupervised_phi, compute_supervised_phi_gamma, compute_supervised_approximate_phi, compute_h, compute_supervised_likelihood", "src/ldaplusplus/em/UnsupervisedEStep.cpp: UnsupervisedEStep::doc_e_step", "src/ldaplusplus/em/SupervisedEStep.cpp: SupervisedEStep::doc_e_step", "src/ldaplusplus/em/FastSupervisedEStep.cpp: FastSupervisedEStep::doc_e_step", "src/ldaplusplus/em/MultinomialSupervisedEStep.cpp: MultinomialSupervisedEStep::doc_e_step", "src/ldaplusplus/em/CorrespondenceSupervisedEStep.cpp: CorrespondenceSupervisedEStep::doc_e_step", "include/ldaplusplus/utils.hpp: fast_exp, normalize_cols"])
P("Fitting the classifier never leads to infinite or undefined values",
  "With the exponential of a floating point format, which is infinite for large arguments and zero for small ones, the M step of the fast supervised model ends for every corpus, every class weights, penalty and starting point, every objective it reports is a number and not worse than the one before, and the documented objective after it is not worse than before it.",
  "every corpus of topic mixtures and labels, every number of topics and classes, all positive class weights, every penalty, every position to start from, every limit of iterations and tolerance, every range of the exponential (float and double among them)",
  "the weights in tests stay small, so no exponential leaves the range; whether one does depends on the data, the penalty and the step lengths tried",
  ["src/ldaplusplus/optimization/MultinomialLogisticRegression.cpp: value, gradient", "include/ldaplusplus/optimization/GradientDescent.hpp: ArmijoLineSearch::search, GradientDescent::minimize", "src/ldaplusplus/em/FastSupervisedMStep.cpp: FastSupervisedMStep::m_step"])
P("fast_exp and digamma stay accurate when every operation is rounded",
  "Computed in floating point, digamma of a positive number ends after at most eight passes of its loop and differs from the digamma function by at most 6e-11 plus 400 rounding units relative to one plus its size. fast_exp returns a positive number whose logarithm differs from the argument by at most max(1, 2|x|) (1/1023 + 23e-14 + 4u) + 2u for |x| up to 100, and by at most 4u beyond, as long as the result is neither too large nor too small for the format.",
  "every positive argument (digamma), every argument (fast_exp), every outcome of the roundings of all operations, float, double and mixtures of both",
  "a test compares a few arguments on one machine, where rounding, the width of intermediate results and the library's exp and log are fixed",
  ["include/ldaplusplus/utils.hpp: fast_exp, fast_positive_exp, digamma"])
P("A listener may use the model whose event it handles",
  "While it handles an event of an LDA object, a listener may call transform, decision_function or predict of this object. It gets the result of the current parameters for every document, in the order of the documents (at the end of an epoch: the parameters with which the epoch ended), the call returns, and training goes on as if the listener had not asked. Another thread may do the same.",
  "every kind of event, every corpus and number of workers, every schedule of the threads, any number of calls by listeners, nested ones included",
  "a test of a listener that evaluates the model sees one kind of event and one schedule; whether the members that both calls share (threads, queues, dispatcher) are free at that moment depends on where the outer call is",
  ["src/ldaplusplus/LDA.cpp: partial_fit, transform, create_worker_pool, destroy_worker_pool", "include/ldaplusplus/LDA.hpp: workers_, queue_in_, queue_out_, event_dispatcher_", "src/ldaplusplus/events/Events.cpp: ThreadSafeEventDispatcher::process_events, SameThreadEventDispatcher::dispatch"])
P("The likelihood reported by the supervised steps is a lower bound of the log-probability",
  "The number that the supervised and the fast supervised E steps report for a document and its class is at most the logarithm of the probability of the document and the class under supervised latent Dirichlet allocation with the parameters of the model (up to the 1e-44 guard inside the logarithms and the accuracy of fast_exp, 0.1% per word or 0.2% of the largest parameter of the classes).",
  "every document, class, model, number of iterations and tolerance, both supervised steps",
  "the probability of a document is an integral over the mixtures of topics summed over all assignments of topics to words, which no test computes; a test sees single numbers that look plausible",
  ["include/ldaplusplus/e_step_utils.hpp: compute_supervised_likelihood, compute_h", "src/ldaplusplus/e_step_utils.cpp: compute_supervised_likelihood", "src/ldaplusplus/em/SupervisedEStep.cpp: doc_e_step", "src/ldaplusplus/em/FastSupervisedEStep.cpp: doc_e_step"])
P("The likelihood reported by the multinomial step is a lower bound of a log-probability",
  "The number that the multinomial supervised E step reports for a document and its class, less the document's share in the log-density of the parameters of the classes, is at most the logarithm of the probability of the document and the class, and so at most the logarithm of the probability of its words (up to the 1e-44 guard inside the logarithms).",
  "every document, class, prior of the class, model, smoothing, weight of the classes, number of iterations and size of the corpus",
  "the probability of a document is an integral over the mixtures of topics summed over all assignments of topics to words, which no test computes; a test sees single numbers that look plausible",
  ["src/ldaplusplus/e_step_utils.cpp: compute_supervised_multinomial_likelihood", "src/ldaplusplus/em/MultinomialSupervisedEStep.cpp: doc_e_step", "src/ldaplusplus/Document.cpp: EigenClassificationCorpus::get_prior"])
P("The supervised step is defined and finite for every model of finite numbers",
  "For every model of finite numbers, every document with words and every class, the supervised E step returns finite variational parameters: gamma is positive and, up to rounding, the prior plus the words assigned to each topic, and the probabilities of the topics of each word are not negative and sum to one up to rounding. It never converts a NaN to an index into its table of exponentials.",
  "every document, class, model, weights, tolerance, number of iterations and of fixed point iterations, rounding and order of the sums, in float and in double",
  "the step keeps a running product over the words of the document that is divided and multiplied in place through all iterations, so what goes wrong depends on the weights, the document and the history together; tests use weights close to zero",
  ["src/ldaplusplus/em/SupervisedEStep.cpp: doc_e_step", "src/ldaplusplus/e_step_utils.cpp: compute_supervised_phi_gamma, compute_gamma", "include/ldaplusplus/utils.hpp: fast_exp"])
P("The multinomial and the correspondence steps are defined, finite and lose no word for every model",
  "For every model of finite numbers, every document with words and every class, the multinomial and the correspondence E steps return finite variational parameters: gamma is at least the prior and, up to rounding, the prior plus the words assigned to each topic; the probabilities of the topics of each word of the document are not negative and sum to one up to rounding; so does the importance that the correspondence step gives to the words. No step converts a NaN to an index into the table of exponentials.",
  "every document, class, model, weight of the class, tolerance and number of iterations, rounding, order of the sums and accuracy of the logarithm, in float and in double",
  "the result depends on logarithms of probabilities that estimation drives to zero, on the weight given to the class and on the priors together; tests use a few models without zeros",
  ["src/ldaplusplus/em/MultinomialSupervisedEStep.cpp: doc_e_step", "src/ldaplusplus/em/CorrespondenceSupervisedEStep.cpp: doc_e_step", "src/ldaplusplus/e_step_utils.cpp: compute_supervised_multinomial_phi, compute_supervised_correspondence_phi, compute_supervised_correspondence_tau", "include/ldaplusplus/utils.hpp: fast_exp, normalize_cols"])
P("The likelihood reported for a document is a number",
  "For every model of finite numbers, every document with words and every class, the likelihood that the unsupervised, the multinomial and the correspondence E steps dispatch for the document, when it is computed, is a finite number, so that a listener can tell it from the NaN that is dispatched when it is not computed, and the mean over the documents is finite.",
  "every document, class, model, prior, smoothing, size of the corpus, tolerance and number of iterations, rounding, order of the sums and accuracy of digamma, logarithm and lgamma, in float and in double",
  "the likelihood is a sum of ten terms, each of which can overflow, be undefined or cancel an infinity for some model; tests compare a few values",
  ["src/ldaplusplus/e_step_utils.cpp: compute_unsupervised_likelihood, compute_supervised_multinomial_likelihood, compute_supervised_correspondence_likelihood, compute_unsupervised_phi", "src/ldaplusplus/em/UnsupervisedEStep.cpp: doc_e_step", "src/ldaplusplus/em/MultinomialSupervisedEStep.cpp: doc_e_step", "src/ldaplusplus/em/CorrespondenceSupervisedEStep.cpp: doc_e_step"])
P("Training goes on for as long as one likes",
  "For every corpus and every start, training with the unsupervised steps for any number of epochs leaves topics that are finite, nonnegative, sum to one and give every word of the corpus a positive probability in some topic, and with them the step and the likelihood of every document of the corpus are defined and finite.",
  "every corpus, start, prior, number of epochs, order in which the results of the documents arrive in each epoch, tolerance and number of iterations, rounding, order of the sums and accuracy of digamma, logarithm and lgamma, in float and in double",
  "each epoch starts from the rounded result of the one before, so an error or a probability that gets lost in one epoch may matter only in a later one; tests run a few epochs over one corpus",
  ["src/ldaplusplus/em/UnsupervisedMStep.cpp: m_step, doc_m_step", "src/ldaplusplus/em/UnsupervisedEStep.cpp: doc_e_step", "src/ldaplusplus/e_step_utils.cpp: compute_unsupervised_phi, compute_unsupervised_likelihood", "src/ldaplusplus/LDA.cpp: fit, partial_fit"])
P("Training with classes goes on for as long as one likes",
  "For every labelled corpus, every start and every smoothing, training with the multinomial and with the correspondence steps for any number of epochs leaves finite topics and class weights, of which the weights of each topic are positive and sum to one and every word of the corpus has a positive probability in some topic; what the M step reports in each epoch is a number, and with the trained parameters the step and the likelihood of every document of the corpus are defined and finite.",
  "every labelled corpus, start, prior, smoothing, class weight, number of epochs, order in which the results of the documents arrive in each epoch, tolerance and number of iterations, rounding, order of the sums and accuracy of digamma, logarithm and lgamma, in double",
  "each epoch starts from the rounded result of the one before, and a class weight that becomes zero or a word that gets lost in one epoch is noticed only in the next; tests run a few epochs over one corpus",
  ["src/ldaplusplus/em/MultinomialSupervisedMStep.cpp: m_step, doc_m_step", "src/ldaplusplus/em/CorrespondenceSupervisedMStep.cpp: m_step, doc_m_step", "src/ldaplusplus/em/MultinomialSupervisedEStep.cpp: doc_e_step", "src/ldaplusplus/em/CorrespondenceSupervisedEStep.cpp: doc_e_step", "src/ldaplusplus/LDA.cpp: fit, partial_fit"])
P("Online training keeps the classifier bounded",
  "With a momentum below one and a positive learning rate and penalty, training with the online maximisation step keeps the entries of eta bounded: there is a bound that depends on the settings and on eta at the start only, and that holds after any number of minibatches of any documents.",
  "every learning rate, penalty, momentum below one and minibatch size, every start and every history of documents with words and with labels in range, of any length and in any order, with any number of batch steps between them",
  "momentum makes each update depend on all the ones before, and a step that is a little too long shows after many minibatches only; documents can be chosen so that each one pushes in the worst direction",
  ["src/ldaplusplus/em/FastOnlineSupervisedMStep.cpp: m_step, doc_m_step", "src/ldaplusplus/optimization/MultinomialLogisticRegression.cpp: gradient, constructor", "include/ldaplusplus/LDABuilder.hpp: set_fast_supervised_online_m_step"])
P("The digamma function returns",
  "digamma returns for every argument, and the calls that the unsupervised and the fast supervised expectation step make take at most seven rounds of its loop each, whatever the document and the model; those of the supervised step are bounded by the size of the document and the number of passes.",
  "every number of the machine, in float and double, including infinities and NaN; every document, prior, topics, class weights, tolerance and number of passes, also if numbers overflow on the way",
  "the loop counts a floating point number up by one; that this ends depends on how the sum is rounded, and the numbers for which it does not end are too far from usual inputs to be met in a test, which would hang rather than fail",
  ["include/ldaplusplus/utils.hpp: digamma", "src/ldaplusplus/e_step_utils.cpp: compute_unsupervised_phi, compute_supervised_approximate_phi, compute_unsupervised_likelihood", "include/ldaplusplus/LDABuilder.hpp: initialize_topics_from_model"])
P("Equal topics stay equal",
  "Training never tells two topics apart that are equal in the model it starts from (prior, words and class parameters): they are equal in the trained model, and in gamma and phi of every document. So the difference between topics comes from the initialisation only.",
  "every pair of topics, corpus, model, number of iterations, setting, schedule, number of workers and shuffle, every history of calls of the online step; with exact numbers, and for the unsupervised, multinomial and correspondence steps also with rounding, overflow and NaN",
  "an asymmetry between topics (a loop that starts at the wrong topic, an update that uses the new value of one topic for the next) is hidden by the random start of every test, and it would have to be excluded for all of training",
  ["src/ldaplusplus/LDA.cpp: fit, partial_fit", "src/ldaplusplus/em: all E steps and M steps", "include/ldaplusplus/LDABuilder.hpp: initialize_topics_seeded, initialize_topics_from_model"])
P("A corpus with every document repeated trains the same model",
  "Training on a corpus in which every document occurs r times, in any arrangement, gives the same topics as training on the documents once; for the multinomial and correspondence models also the same class parameters, as long as no smoothing is used.",
  "every corpus, arrangement of the copies, number of copies, model, E step whose result depends on the document and not on its place, number of iterations, schedules, numbers of workers and shuffles of the two trainings",
  "a normalisation that depends on the number of documents, or statistics that are not reset between epochs, shows only for particular corpora and counts",
  ["src/ldaplusplus/LDA.cpp: fit, partial_fit", "src/ldaplusplus/em/UnsupervisedMStep.cpp: doc_m_step, m_step", "src/ldaplusplus/em/MultinomialSupervisedMStep.cpp: doc_m_step, m_step", "src/ldaplusplus/em/CorrespondenceSupervisedMStep.cpp: doc_m_step, m_step"])
P("With one topic training counts words",
  "If the model has one topic, or topics that all start out equal, and they know every word of the corpus, then after training every topic consists of the relative frequencies of the words in the corpus, and for the multinomial and correspondence models the class parameters are the shares of the classes in the words (smoothed).",
  "every corpus with a word, number of topics, starting distribution, setting of the E step, number of iterations other than zero, schedule, number of workers and shuffle",
  "the expected counts have a closed form only in this case; that all of training reproduces it exactly, independently of the start, settings and schedule, ties the two halves of training together and cannot be sampled",
  ["src/ldaplusplus/LDA.cpp: fit, partial_fit", "src/ldaplusplus/e_step_utils.cpp: compute_unsupervised_phi, compute_supervised_multinomial_phi, compute_supervised_correspondence_phi, compute_supervised_correspondence_tau", "src/ldaplusplus/em: UnsupervisedMStep, MultinomialSupervisedMStep, CorrespondenceSupervisedMStep"])
P("Exit status 0 means that the result has been written",
  "If lda, slda or fslda train or transform ends with exit status 0, then the file named on the command line holds the result, whatever the disk answers to the requests to open the file and to write to it.",
  "every training or transform that reaches its end, every content of the disk and every pattern of granted and refused requests",
  "depends on at which byte the disk refuses; no test runs into a full disk at every position of a file",
  ["src/applications/lda.cpp: main", "src/applications/slda.cpp: main", "src/applications/fslda.cpp: main", "src/applications/lda_io.cpp: save_lda", "include/ldaplusplus/NumpyFormat.hpp: save"])
P("Words that the topics do not tell apart are interchangeable",
  "If a word is split into variants whose probabilities are proportional in all topics (spellings, say), then the topics found for a document do not depend on which of the variants it contains: gamma, and the weights of the topics for each word, are those of the document in which the variants are counted together. One iteration of training from such topics finds for the word the sum of what it finds for the variants.",
  "every document, vocabulary, splitting of its words into any number of variants, usualness of the variants, model, setting of the steps, and for the iteration every corpus, schedule, number of workers and order",
  "relates two runs over different vocabularies, for all ways to split the words and all numbers of iterations of the E step",
  ["src/ldaplusplus/e_step_utils.cpp: compute_unsupervised_phi, compute_supervised_approximate_phi, compute_supervised_multinomial_phi, compute_supervised_correspondence_tau, compute_supervised_phi_gamma, compute_gamma", "src/ldaplusplus/em: UnsupervisedEStep, FastSupervisedEStep, MultinomialSupervisedEStep, CorrespondenceSupervisedEStep, SupervisedEStep, UnsupervisedMStep"])
P("The weights of a topic keep adding up to zero over the classes",
  "If for every topic the weights in eta add up to zero over the classes (as they do at the start, when eta is zero), they do so after any training: with two classes, the weights of one are minus the weights of the other, and a weight says how much the topic speaks for a class against the others. From any other start the sums of all topics are multiplied by one common factor, which is 1 if there is no penalty.",
  "every corpus, labels, class weights, penalty, line search along the gradient, number of steps of the descent, E step, schedule, number of workers, order, number of iterations, and for the online step every history of calls",
  "an invariant of all iterates of a descent whose number of steps has no bound, for all corpora and settings",
  ["src/ldaplusplus/optimization/MultinomialLogisticRegression.cpp: gradient", "include/ldaplusplus/optimization/GradientDescent.hpp: minimize, ArmijoLineSearch, ConstantLineSearch", "src/ldaplusplus/em: FastSupervisedMStep, SemiSupervisedMStep, FastOnlineSupervisedMStep, SupervisedMStep", "include/ldaplusplus/LDABuilder.hpp: initialize_eta_zeros"])
P("Only the differences between the classes matter",
  "Adding to the weights of a topic the same number for all classes changes nothing a user can see: the documents are predicted to be of the same classes, the topics found in a document are the same, and training from the changed weights finds the same topics and the same weights up to what was added.",
  "every eta, every number added per topic, every document, minibatch, momentum, learning rate, number of steps of the descent and history of calls",
  "an invariance for all real numbers added to all weights; a test compares two runs and cannot tell which of the steps breaks it",
  ["src/ldaplusplus/LDA.cpp: decision_function, predict", "src/ldaplusplus/optimization/MultinomialLogisticRegression.cpp: value, gradient", "src/ldaplusplus/em: FastSupervisedMStep, SemiSupervisedMStep, FastOnlineSupervisedMStep", "src/ldaplusplus/e_step_utils.cpp: compute_supervised_approximate_phi (eta_scaled), compute_supervised_phi_gamma"])
P("The class of a document draws it to the topics that speak for the class",
  "If a topic speaks for a class more than for the other classes, and more than the other topics do, then a document of that class gets at least as much of the topic as it would get from plain LDA; with two classes, a document with the label the topic speaks for gets more of it than the same document with the other label.",
  "every document, every model of two topics (one pass: any number of topics), every number of classes, weights eta, number of iterations, weight of the supervision",
  "a comparison of two loops for all documents and all numbers of iterations, whose iterates influence each other through the exponentials",
  ["src/ldaplusplus/e_step_utils.cpp: compute_supervised_approximate_phi, compute_supervised_multinomial_phi, compute_supervised_correspondence_phi, compute_supervised_phi_gamma", "src/ldaplusplus/em: FastSupervisedEStep, MultinomialSupervisedEStep, CorrespondenceSupervisedEStep, SupervisedEStep"])
P("digamma gives larger values for larger arguments",
  "For positive arguments digamma is increasing: of two arguments the larger has the larger value.",
  "all pairs of positive real arguments",
  "a statement about all pairs of real numbers; the places where it fails are seven points with gaps of about 4e-11 that a grid of arguments does not show",
  ["include/ldaplusplus/utils.hpp: digamma"])
P("Documents without words change nothing",
  "Adding documents without words to a corpus, anywhere, changes nothing in the trained model: neither the topics nor the parameters of the classes.",
  "every corpus with at least one document, every number and places of the additional documents and their labels, E step whose result depends on the document and not on its place, number of iterations, schedules, numbers of workers and shuffles of the two trainings",
  "a comparison of two trainings of any length under all schedules; the effect on the class weights shows only for some mixtures of labels",
  ["src/ldaplusplus/em/UnsupervisedMStep.cpp: doc_m_step, m_step", "src/ldaplusplus/em/MultinomialSupervisedMStep.cpp: doc_m_step, m_step", "src/ldaplusplus/em/CorrespondenceSupervisedMStep.cpp: doc_m_step, m_step", "src/ldaplusplus/em/FastSupervisedMStep.cpp: m_step", "src/ldaplusplus/optimization/MultinomialLogisticRegression.cpp"])
P("Online training forgets at the rate of beta_weight",
  "The topics of online training follow the recent minibatches: what they owe to the topics at the start, and to a minibatch, is multiplied by beta_weight with every further minibatch.",
  "every history of calls of the online step with every topic in use, every minibatch size and beta_weight from 0 to 1, topics at the start, results of the E step",
  "a statement about histories of every length; after a few minibatches a slow decay and a geometric one look alike",
  ["src/ldaplusplus/em/FastOnlineSupervisedMStep.cpp: doc_m_step, m_step"])
P("A class without documents is never predicted",
  "Training for more classes than the corpus has does no harm: after fit, predict never returns a class that no document of the corpus has.",
  "every corpus and number of classes, every class without documents whether or not it is the last, every number of iterations, workers, shuffle and schedule, every document to be predicted with a word that counts",
  "ranges over every corpus and every length of training; the weights of such a class are pushed down by every document and pulled back by the penalty, and a test sees one balance of the two",
  ["src/ldaplusplus/em/FastSupervisedMStep.cpp: m_step", "src/ldaplusplus/em/SemiSupervisedMStep.cpp: doc_m_step", "src/ldaplusplus/optimization/MultinomialLogisticRegression.cpp: gradient", "include/ldaplusplus/optimization/GradientDescent.hpp: ArmijoLineSearch", "src/ldaplusplus/LDA.cpp: predict"])
P("Semi-supervised training is the training of its parts",
  "If every document has a class, training with the semi-supervised steps gives the same model as training with the fast supervised steps; if no document has one, it gives the topics of LDA.",
  "every corpus, model at the start, number of workers and schedule of either training, every order of the documents in every iteration, every number of iterations",
  "relates two trainings with different steps for every corpus and every pair of schedules; a test compares two runs",
  ["src/ldaplusplus/em/SemiSupervisedEStep.cpp: doc_e_step", "src/ldaplusplus/em/SemiSupervisedMStep.cpp: doc_m_step", "src/ldaplusplus/em/FastSupervisedMStep.cpp: m_step", "src/ldaplusplus/optimization/MultinomialLogisticRegression.cpp: MultinomialLogisticRegression", "src/ldaplusplus/LDA.cpp: fit"])
P("Applying a model between trainings changes nothing",
  "A program may call transform, predict or transform_predict as often as it likes before, between and after calls of partial_fit: the model it ends with is the one it would have without these calls, and each of them gives the result of the model at that moment.",
  "every sequence of calls of partial_fit and transform on one object, every number of documents transformed, every schedule, number of workers and shuffle of every call, every E step and every batch M step in any state of its buffers",
  "relates all interleavings of two kinds of calls, each under every schedule; a test makes one sequence of calls under one schedule",
  ["src/ldaplusplus/LDA.cpp: partial_fit, transform, predict, transform_predict", "src/ldaplusplus/em/*MStep.cpp: doc_m_step, m_step"])
P("Batch training keeps the classifier bounded",
  "With a regularization penalty above 0 and at most 1 (the default is 0.01), training with the fast supervised, the semi-supervised or the second order supervised maximisation step never makes a weight of the classifier larger in absolute value than the number of documents divided by the penalty (twice that for the second order approximation), however long it goes on; the scores that decision_function returns are bounded likewise.",
  "every labelled corpus, every number of iterations of fit and of the descent, every tolerance, every penalty in the range, every schedule, number of workers and shuffle, every E step that does not put gamma below alpha, and the E steps of the library from every valid start with weights zero",
  "a bound for any number of iterations on any corpus; a test runs finitely many iterations on one corpus",
  ["src/ldaplusplus/em/FastSupervisedMStep.cpp: m_step", "src/ldaplusplus/em/SupervisedMStep.cpp: m_step", "src/ldaplusplus/em/SemiSupervisedMStep.cpp: m_step", "include/ldaplusplus/optimization/GradientDescent.hpp: minimize, ArmijoLineSearch", "src/ldaplusplus/optimization/MultinomialLogisticRegression.cpp: gradient", "src/ldaplusplus/optimization/SecondOrderLogisticRegressionApproximation.cpp: gradient"])
P("Training on one corpus after the other",
  "Calling partial_fit on one object with one corpus after the other, of any sizes, gives the parameters of the epochs on these corpora in turn, whatever the schedules, shuffles and numbers of workers. The object keeps nothing of the corpora it has seen but the parameters and the state of its E step: trained on further corpora, the first of which is not empty, it gives what a new object gives that starts from those parameters.",
  "every list of corpora and sizes, every schedule, shuffle and number of workers of each call, every E step result, every list of further corpora whose first has documents; each of the six batch maximisation steps",
  "ranges over all sequences of corpora and all schedules; a test trains on one or two corpora once, and a leftover statistic or label of an earlier corpus shows only with some of them",
  ["src/ldaplusplus/LDA.cpp: partial_fit", "src/ldaplusplus/em/UnsupervisedMStep.cpp: m_step", "src/ldaplusplus/em/FastSupervisedMStep.cpp: m_step", "src/ldaplusplus/em/SemiSupervisedMStep.cpp: m_step", "src/ldaplusplus/em/SupervisedMStep.cpp: m_step", "src/ldaplusplus/em/MultinomialSupervisedMStep.cpp: m_step", "src/ldaplusplus/em/CorrespondenceSupervisedMStep.cpp: m_step"])
P("Words that one corpus lacks are forgotten for good",
  "If LDA, fast supervised LDA or semi-supervised LDA is trained with partial_fit on one corpus after the other, a topic gives positive probability to exactly those words that it knew at the start and that occur in every one of the corpora; it remains a distribution as long as there is such a word for every topic. So a word that is missing from one corpus has probability zero in all topics ever after, even if later corpora have it again, and training can only shrink the vocabulary.",
  "every list of corpora of any sizes, every start with topics that are distributions, every schedule, shuffle and number of workers of each call, every number of E step iterations above zero with a tolerance that the documents exceed",
  "ranges over all sequences of corpora and all schedules; a test sees the vocabulary after a few given corpora",
  ["src/ldaplusplus/LDA.cpp: partial_fit", "src/ldaplusplus/em/UnsupervisedEStep.cpp: doc_e_step", "src/ldaplusplus/em/FastSupervisedEStep.cpp: doc_e_step", "src/ldaplusplus/em/UnsupervisedMStep.cpp: doc_m_step, m_step", "src/ldaplusplus/em/FastSupervisedMStep.cpp: doc_m_step, m_step"])
p = os.path.join(os.path.dirname(os.path.abspath(__file__)), "..", "properties.jsonl")
with open(p, "w") as f:
    for o in OUT: f.write(json.dumps(o) + "\n")
print(len(OUT))
for o in OUT: print(o["id"], o["title"])
