# Formal model of LDA++ (angeloskath/supervised-lda)

This directory holds a Lean 4 model of the C++ library in `/repo` and machine-checked
theorems about it.  `properties.jsonl` lists the claims in API terms, `MANIFEST.json` maps
each claim to theorem names, `seeded/LOG.jsonl` records the attempts to break the model on
purpose and which theorems noticed.

## Layout

| directory | content |
|---|---|
| `lean/Verif/Model/*.lean` | the model, definition by definition, each citing file and lines in `/repo` |
| `lean/Verif/Spec/*.lean`  | small specifications, written without using the model's helpers |
| `lean/Verif/Lemmas/*.lean` | helper lemmas |
| `lean/Verif/Props/*.lean` | the property theorems and, beside each, a concrete non-trivial instance |

## Modelling decisions

* **Numbers.** Floating point is modelled by exact arithmetic in a linearly ordered field `K`
  (theorems that need `exp`/`log`/derivatives use `ℝ`).  Rounding is not modelled.  A division
  whose divisor is not guarded in the code is *checked*: the model returns `none`
  ("not a finite number") when the divisor is 0, so no theorem profits from Lean's `x / 0 = 0`.
  Where the code's comments are about NaN/infinity themselves, the function is modelled a second
  time over scalars extended with `nan`, `+inf`, `-inf`.
* **Integers.** `int`/`size_t` are unbounded unless the property is about their range
  (NPY dimensions and header length; int accumulators).
* **Matrices** are functions `Fin rows → Fin cols → K`; shapes that the code changes at run time
  (lazily allocated buffers) are modelled by `Option`/lists.
* **Undefined behaviour** (out-of-range index, `maxCoeff` of an empty vector, decrement of
  `begin()`, wrong `static_pointer_cast`) is an explicit outcome, never assumed away.
* **Threads.** The worker pool is a small-step transition system (Model/Pool).  A critical section is
  one step (mutexes are assumed to be correct), everything else (E step, push, notify, wait,
  wake-up, join) is a separate step, so all interleavings of these steps are covered.  Model/Fine
  splits the critical sections and the E step into single lock operations, reads and writes, and
  C122 proves that the outcomes are the same for the batch M steps.  Model/Races has every access
  to shared memory and proves the absence of data races (C119), which is what justifies reasoning
  with interleavings at all; weak memory orders are not modelled beyond that.
* **Random numbers** are an arbitrary stream given as a parameter; theorems quantify over it.

## Plan per property

| id | what is modelled | how it is proved |
|---|---|---|
| C01–C06 | pool transition system: `queue_in_`, `queue_out_`, mutexes, condition variable, worker and main program counters | inductive invariant (token conservation), measure for termination, progress theorem; for zero workers the negation |
| C07 | pool with an event queue (dispatch inside `doc_e_step`, `process_events` after each extraction) | invariant relating delivered + queued events with completed jobs |
| C08 | pool + batch M-step accumulators | arrival order is a permutation; accumulators and logistic objective are permutation invariant |
| C09 | pool with online update | two schedules with different results (negation); equality with the sequential algorithm for one-in-flight schedules (partial) |
| C10 | `fit` as iteration of epochs | induction on the number of iterations |
| C11–C16 | dispatcher state machines over an op alphabet | refinement to an abstract log of (event, listener) deliveries, induction over histories; negations for C13, C14 |
| C17, C18 | index vector, Fisher–Yates driven by an arbitrary stream, priors loop with UB outcome | permutation invariant; counting |
| C19–C26 | byte-level writer and reader, C string/`stoi`/`substr` semantics, exceptions and UB as outcomes | decode∘encode, concatenation, negations for C24, C25 |
| C27, C28, C33, C34 | loops as folds | loop invariants against `∑`-style specs; extended scalars for C28 |
| C29–C31 | table of 1024 literals, `fast_exp` recursion | kernel-checked table ratios + induction; real analysis |
| C32, C88 | `digamma` loop | strong induction on the distance to 7; the series against the digamma function by telescoping a sum of `artanh` series |
| C35–C45 | E-step functions of `e_step_utils.cpp` and the six `doc_e_step`s | invariants over iterations, closed forms |
| C46–C53 | M-step state machines | invariants over histories; Gibbs inequality for maximality |
| C54–C59 | line search, gradient descent, objectives | first-failure characterisation, calculus (`HasFDerivAt`), induction over iterations |
| C60, C61 | decision function, arg max | order reasoning |
| C62–C64 | builder as a state machine with shared cells | induction over call sequences; aliasing witness |
| C65–C67 | console application listeners and option handling | induction over event histories |
| C68, C69 | ELBO value, phi update | algebra; Gibbs inequality |
| C89, C90 | gamma update, iterations of the unsupervised E step | convexity of the logarithm of the Beta function (Hölder), Gibbs inequality with an error term, induction over the iterations |
| C91 | the reported likelihood against the probability of the document as a Pólya urn | induction over the words with the two inequalities; witness with a repeated word |
| C92, C93 | all E steps under permutations of topics and vocabulary | equivariance of every function of the step, then induction over the iterations; witness with two words for the supervised step |
| C94 | fast, multinomial and correspondence step against the unsupervised one | simulation between the loops |
| C95 | pool model: order in which the results reach the calling thread | counting invariant for the bound; construction of a schedule for every permitted order |
| C96, C97 | unsupervised M step, normalisation and gamma with rounded operations and unspecified order of summation (`Rounded`), inside of the pool model | relative errors `(1-u)^m` composed over the documents and sums; rounding to `p` bits is an instance; witness built from a tie for every `p` |
| C98 | sweep and loop of the supervised step with exact `exp` and digamma | each fixed point update maximises a lower bound of the column objective (tangent of the logarithm); gamma by C89; witness with Gamma at half integers |
| C99 | the likelihood functions of the multinomial and correspondence steps against a bound over the list of words | unfolding and sums over words; witness from the values of Gamma at 2 and 4 |
| C100, C101 | step and loop of the multinomial and correspondence steps with exact `exp` and digamma | one lemma on updates with extra terms in the exponent (Gibbs inequality per word, gamma by C89); tau by the Gibbs inequality over the vocabulary; witness with one topic |
| C102 | the M steps of C46, C57 and C58 and the bounds of C68 and C99 | the bound splits into a part that does not depend on the parameters and weighted logarithms; Gibbs inequality per row; witness with two topics and two words |
| C103 | `trainCfg` with the unsupervised M step, the E step of C38 | refinement to the sequential epoch, then C102; witness by the symmetry of C92, the monotonicity of C90 and convexity of log Gamma |
| C104 | `Obj`, `Obj.moved`, `Life` over `Calls` | induction on the program; queues empty after every call by C105 |
| C105 | `Calls` with any `owner` | simulation (`Framed`) between a run with and without queued events, invariants, induction on the calls |
| C106 | `rCount`, `RPriors` with `roundTo p` | a rounded counter is `min n (2^p)` (induction; ties to even), exact sums of whole numbers in any order |
| C107 | `DSt`, `dstep`: the pool with calls of the shared generator | counting invariants over all schedules, erasure of the draws, two schedules |
| C108 | the five loops of C38 | conservation of the mass of gamma (C36) turns the absolute rule into a relative one; two witnesses |
| C109 | the reader of C19–C26 | case analysis on the wrapped element count, for all shapes and contents |
| C110 | `RArmijoSearch`: the search of C54 with every operation rounded, in the loop of C56 | induction over the loops for any rounding that never jumps over a representable number; rounding to nearest with gradual underflow is shown to be one; the step becomes zero after finitely many halvings; a witness in every precision |
| C111 | nothing new: the descent of C56 on the objective of C57 | log-sum-exp lies below a parabola (by an elementary inequality between square roots of distributions), so the Armijo search (C54) never makes a step shorter than a bound; a potential of distance and objective decreases along the loop; strong convexity (C79) where it stops early |
| C112 | the members after an exception at each place that can throw: joinable threads, queues, an arbitrary model (Model/Failure.lean) | invariants of the pool (C01, C06) at each place; for jobs that are left the invariants hold from every start, and the number of documents in the members is conserved |
| C113 | the loops of the E step as modelled for C38 | a potential that every update increases by at least the square of the change (Lemmas/Converge.lean), bounded because the weights are; for the actual functions fast_exp(digamma(x)) is monotone although digamma is not (Lemmas/WeightMono.lean); for the supervised step the potential has the square of the counts in front of the scores, so that it grows for repeated words too, and is followed from the first sweep on (Lemmas/ConvergeSup.lean); the negation by an invariant of period two (Props/Oscillate.lean) |
| C114 | the index vector and generator of a corpus through `fit` and `partial_fit` (Model/Passes.lean) | the last swap of the shuffle can be read off the result, so numbers and orders correspond one to one (induction); counting by exchanging two documents |
| C115 | the E steps, M steps, training and classification of the other rows with `eta` and the labels renumbered | each function commutes with the renumbering; sums and maxima over the classes do not depend on the order; then induction over gradient steps, histories and epochs (Lemmas/Renaming.lean carries a renaming through every schedule of `fit`) |
| C116 | the M steps, training and scores of the other rows with topics and words renumbered | each function commutes with the renumbering (Lemmas/Topics.lean: the gradient descent and both objectives); then `Renames.fit` of C115 carries it through training, with the E steps by C92 and C93 |
| C117 | the decision function of C60 and a formula copied from the guide | the scores times the number of words are those of the guide less the scores of alpha; witness with two disjoint topics, for which the E step is determined |
| C118 | the training of C08 with the E steps of C35 | an invariant of the parameters between epochs, carried through epoch and fit by the order independence of C08; each M step keeps it because expected counts are positive exactly where they should be |
| C119 | every access to shared memory, every mutex operation, start and join of a thread as a step of its own (Model/Races) | happens-before as a transitive closure over the trace; an invariant that says who knows of which access, kept by every step because the rest of every program keeps to a discipline of locks, ownership and handing over |
| C120 | threads with serial numbers, and identifiers the system hands out, also again after a thread has ended; which thread runs process_events (Model/Threads) | invariant over histories: only the constructing thread has the stored identifier; concrete history for the reuse |
| C121 | the machine of C119 with the condition variable: sleeping, signals, waits that end without reason (Model/Races) | a measure that every step lowers; invariants: no more results are expected than will come, a sleeping caller has found nothing or a worker is about to signal; nobody waits for a mutex with another in hand, except for the two of process_events |
| C122 | the pool with mutexes, separate reads and writes of the queues, many reads of the model per E step, events handed over one by one (Model/Fine) | simulation of each small step by at most one step of Model/Pool, with mutual exclusion and "what was read is still so" as invariants; simulation back by runs of small steps; a concrete run for the online M step |
| C123 | the requests to open and write files that a training makes, each granted or not, and the byte-level reader and writer (Model/Disk) | executions are prefixes of the requests with arbitrary answers; induction over the files; the cut files by case analysis with C25 |
| C124 | the programs from the files they read to the files they write, as a relation between the files and the ways to end (Model/Programs) | composition: reader (C19-C26), pool (C02, C05), writer and disk (C123) |
| C125 | the training programs from DATA to MODEL and the snapshots (Model/Programs) | composition: reader, pool and order independence (C08), snapshots and disk (C65, C123) |
| C126 | the sum of counts as any tree of additions of `int`, in C++ or in packets (Model/Counts) | induction over the tree; the wrapped sum does not depend on the tree |
| C127 | the unsupervised step in IEEE formats with underflow, and overflow in `fast_exp` (Model/Limits) | rounding is monotone and exact at powers of two; errors with a relative and an absolute part; table entries bound the squares, from above through the exponential; some topic that knows a word gets at least a K-th of it (Props/LimitsSharp) |
| C128 | the memory of the caller: matrices, labels, corpora that refer to them, documents that are copies, jobs that own corpora (Model/View) | invariant of the memory under the rules for the caller; a frame that no operation changes |
| C129 | the fast supervised step with infinities and NaN in IEEE formats (Model/Overflow) | finite numbers by bounds on every intermediate result; NaN and infinities followed through sums in any order |
| C130 | the supervised step with infinities and NaN (Model/Sweep), the other steps over the reals (Model/EStep) | NaN followed through the products of a word to the index of the table; columns of phi for unknown words are zero, so gamma does not see them; two models with bounds on fast_exp and digamma as counterexamples |
| C131 | the exponential of the logistic objective with a limited range, values in the reals with infinities and NaN (Model/Range) | the sums over the classes stay non-negative in every step up to length one, so one exponential is at least one; near a position only fewer exponentials count, and the objective with those that count there has the gradient computed; two documents as counterexample |
| C132 | `fast_exp` and `digamma` as relations, each operation any number within the rounding error (Model/Primitives) | invariant of the loop of `digamma` (distance of the shifted argument and of the sum of reciprocals), condition numbers of the series, logarithms for the squarings of `fast_exp`; rounding to nearest is an instance |
| C133 | calls of `transform` made by listeners, at the places of the outer call where listeners run, on the same threads, queues and dispatcher (Model/Nested, on top of Model/Pool and Model/Failure); a stack of calls of `partial_fit` made by listeners (Model/Tower) | an invariant over all interleavings of outer and nested steps: without the nested ones the outer call is an execution of Model/Pool; the places are classified by the threads that are joinable there |
| C134 | the reports of the supervised steps; the probability of a document and its class as a recursion over the words with the topics so far | one induction over the words for an arbitrary probability of the class given the topics (Gibbs inequality per word); Jensen's inequality for the normaliser; inequality of power means for repeated words |
| C135 | the report of the multinomial step; the expected product of the votes jointly with the words, by the recursion of C134 | the general bound of C134 with the product of the votes; monotonicity of the recursion; a model with one topic for which the report is computed for every length |
| C136 | Model/Sweep.lean: the supervised step with machine numbers, operation by operation | ratios of the running products to their exact values bounded through all words and passes (Rel), the normalisation of each column as an invariant, the drift of gamma by induction; negations by following infinity and zero through the sums |
| C137 | Model/Labels.lean: the multinomial and the correspondence steps with machine numbers; a logarithm of limited accuracy | an invariant of gamma and phi through all passes with explicit ranges of digamma, logarithm and exponents; negations by following minus infinity through the operations |
| C138 | Model/Reports.lean: the unsupervised step and the three reports with machine numbers; `lgamma` of limited accuracy | every term bounded by a power of two, with sums bounded exactly for at most 2^prec terms; the unsupervised step by the invariant of C137; negations by following non-finite values through the operations |
| C139 | Model/Lasting.lean: epochs of the unsupervised steps with machine numbers | an invariant of the topics kept by every epoch: each word keeps a topic with half of its share, each topic a word with at least the mean; the row of an unused topic stays zero, its quotient is NaN and is followed to the table |
| C140 | Model/Taught.lean: epochs of the multinomial and correspondence steps with machine numbers | an invariant of the parameters kept by every epoch of any step that adds at most four times the counts and at least 2^-lo for each word; lower bounds on the class weights from the smoothing, on tau from the range of the logarithms; zeros are followed to the second epoch |
| C141 | the online step as modelled for C52 | the pull of a minibatch is at most its size, because the balanced weights add up to that, and sums to zero over the classes; each entry follows a linear recurrence of order two, split by its (complex) roots into two of order one; for long steps the sum over the classes follows the recurrence without the pull |
| C142 | `digamma`'s loop with machine numbers (Model/Ending.lean) | small whole numbers are exact and rounding is monotone, so that each round passes the next whole number; in general a round adds at least a half while the unit is at most one; beyond that the sum is rounded back, by nearness or by the tie to even; the steps keep gamma free of negative numbers, by induction on the passes |
| C143 | training as modelled for C116, C139 and C140 | a model in which two topics are equal is the same after swapping them, so by C116 training ends with one that is the same after swapping them; with machine numbers by induction on passes, documents and epochs |
| C144 | training as modelled for C08 | an epoch from cleared statistics adds r times as much, which the normalisation removes; by induction over the epochs, and C08 for every schedule; a witness with one document for the smoothing; permutation and counting for the objective of the classifier, and a descent of one step on copies of a document |
| C145 | E steps and training as modelled for C116 | with equal topics every iteration of an E step leaves phi = 1/K for the words that the topics know, so the statistics of an epoch are the counts divided by K; by induction over iterations and epochs, and C08 for every schedule; a witness for the correspondence model |
| C146 | the programs as modelled for C124 and C125, the requests they make to the disk, their exit status | the requests for the result come last and the others are for other files; induction over the bytes written |
| C147 | the E steps, training of LDA | simulation between the two runs: the factor of a variant cancels when a column is normalised, and the weighted sums over the variants are those over the word; witnesses for the other two steps |
| C148 | `logisticGradient`, `Minimize`, training, the online step | over the classes the gradient adds up to the penalty times the sum of eta; induction over the descent, the calls and the minibatches; witness for the second order approximation |
| C149 | predictions, M steps, fast and supervised E steps | the scores of all classes grow by one number; the descent moves along with its start; factors of the exponentials cancel; witnesses with one word for the steps where it is false |
| C150 | the loops of the E steps | exponents that favour a topic raise its normalised share; with two topics the order of gamma is an invariant of two loops run side by side; witness for the supervised step |
| C151 | digamma on the real line | derivative of the series from seven on, induction along the recurrence below; the fall is the error of one step of the recurrence, bounded by the series of artanh |
| C152 | fit of the batch M steps | sums over the documents of an epoch are unchanged; induction over epochs on top of C08; witness for the class weights |
| C153 | history of the online step | closed form of the topics by induction over the history; lower bound by the geometric sum; witness with one topic |
| C154 | training with the fast, semi supervised and second order M steps, the online step, decision function | sign of the gradient for an unused label; the line search makes steps of at most one, so the penalty does not cross zero; invariant of training, with C148 and C60 for the predictions; for the multinomial and correspondence models the class gets the least of every topic; for the online step the modes of the momentum recurrence stay below zero |
| C155 | semi-supervised E and M steps in training, against the fast supervised ones | the sequential epochs are equal, and by C08 every schedule gives their result; the undefined m_step without labels is carried through the iterations |
| C156 | sequences of calls of partial_fit and transform on one object | relation of the sequences of calls that keeps the leftovers of every call; induction with C06, C02 and the order independence of C08; refinement of sequential epochs |
| C157 | training with the fast, semi supervised and second order M steps | bound of the gradient by the sum of the default class weights; invariant of the descent with steps of at most one, then of training by the order independence of C08; C118 for the E steps of the library |
| C158 | successive calls of partial_fit with different corpora | induction on the calls with the order independence of C08 and its description of the buffers, which does not mention the corpus |
| C159 | successive calls of partial_fit of LDA, fast and semi-supervised LDA with different corpora | C158 reduces the calls to epochs in turn; induction on the corpora with the support of the topics of C118, taken anew from the topics at each corpus |
| C70 | listeners that change the listener list while being notified | induction over the walk of the list; witness of an invalidated iterator |
| C71 | pool model: which steps write what the E step reads | case analysis over the steps with the pool invariant; witness for the online step |
| C72, C85, C86 | types of the documents and variational parameters that the entry points hand to the steps (`Entry`) | definedness of every pair of steps on every sequence of documents, as an equivalence; negations |
| C87 | `Train` over `Pool`, any number of epochs | a step that holds no document is forgotten by the next epoch (from `OrderFree`), iterated; negations for the online step and the decaying weight |
| C73, C74 | the NPY reader and writer on a big-endian host, the magic string | negations for all matrices; independence of the first six bytes |
| C75, C76 | supervised E steps without sweeps and without words | closed forms; witnesses of uninitialised memory |
| C77–C79 | gradient descent with either line search | invariants over iterations, convexity of the objective |
| C80, C81 | second order M step: `int` products, documents without words | overflow bound; witnesses |
| C82 | builder: shapes of `eta` and of the topics | invariant over histories; witness |
| C83, C84, C67 | listeners and option handling of the applications | induction over event histories; case analysis over the options |

## What is modelled

| code | model |
|---|---|
| `LDA.cpp` (all functions but the getters) | `Model/Pool`, `Fine` (its critical sections in single accesses), `Races` (memory accesses), `Train`, `Decision`, `Entry`, `Sharing`, `Object` (the move constructor), `Failure` (after an exception), `Nested` (`transform` called by listeners), `Tower` (`partial_fit` called by listeners) |
| `Document.cpp`, `Document.hpp` | `Model/Corpus`, `Passes`, `Entry`, `View` |
| `Events.cpp`, `Events.hpp`, `ProgressEvents.hpp` | `Model/Events`, `Pool`, `Races`, `Threads` (thread identifiers) |
| `e_step_utils.cpp` and the six E steps | `Model/EStep`, `Semi`, `Counts` (the number of words as an `int`), `Limits` (the unsupervised step in `float` and `double`), `Overflow` and `Sweep` (the fast and the exact supervised step with infinities and NaN), `Labels` and `Reports` (the multinomial, correspondence and unsupervised steps and their likelihoods, likewise) |
| the seven M steps | `Model/MStep`, `Train`; `UnsupervisedMStep` with rounding in `Rounded`, with infinities and NaN in `Lasting`; those of the multinomial and correspondence steps likewise in `Taught` |
| `GradientDescent.hpp`, both logistic regressions | `Model/Optim`, `Range` (the first order objective with an exponential of limited range) |
| `utils.hpp`: products, sums, normalisations, reshaping, `fast_exp` with its table, `digamma` | `Model/MathUtils`, `FastExp`, `ExpLut`, `Primitives` (both functions with rounding), `Ending` (how often the loop of `digamma` is run through with rounding) |
| `utils.hpp`: `ThreadSafePRNG`; the draws of the E steps | `Model/Draws` |
| `NumpyFormat.hpp`, `lda_io.cpp` | `Model/Numpy`, `Disk` (requests to the disk) |
| `LDABuilder.hpp`, `LDABuilder.cpp`, `Parameters.hpp` | `Model/Builder`, `Sharing` |
| `src/applications/*.cpp` | `Model/Apps`, `Programs` (from file to file), `Exit` (the exit status) |

Not modelled: rounding and overflow of floating point numbers (except for the rounding in C96, C97, C106, C110, C127 and C132, the underflow in C127, the
overflow and the special values in C28, C61, C129–C131, C136–C140 and C142); memory orders other than interleaving (C119 proves that the programs with a batch M
step have no data race, and for these the C++ standard promises interleaving); allocation failures (except those in C112); Eigen, docopt,
iostreams and the random number generators themselves (they are represented by what their
documentation says they compute; random numbers are arbitrary);
`bench/`, `test/` and the program `slda.cpp` in the root directory, which
the build does not compile.  Template instantiations for `float` and `double` are one definition.

## Trusted base

* Lean 4.33.0's kernel.
* The axioms `propext`, `Classical.choice` and `Quot.sound`, and no others.  `AXIOMS.md` lists, for
  every theorem of `MANIFEST.json`, the ones it depends on, as reported by Lean.  No axiom of our
  own, no `sorry`, no `native_decide`, no `bv_decide`.
* Mathlib's definitions (reals, `exp`, `log`, derivatives, finite sums) mean what they say.
* The correspondence between the C++ text and the model is by reading: every definition cites the
  lines it models and says where it simplifies.  Nothing here runs the C++ code.

## Where the code and its documentation disagree

For the claims below the statement in `properties.jsonl` is what a user would expect; it is false of
the model.  The negation is proved, with a witness, beside a theorem `..._partial` that says what
does hold.

<!-- disagreements: written by tools/gen_manifest.py -->
* **C05** (partial_fit and transform return for every accepted worker count). False with zero workers and a nonempty corpus (negation proved); proved otherwise.
* **C07** (All expectation events of an epoch are delivered before the epoch event). Proved when the calling thread built the LDA object; false for another calling thread (witness proved).
* **C09** (Training with the online M step is a function of data, seed and parameters). False: with one worker the topics depend on whether the next E step starts before or after the minibatch update, with two also on the order of arrival (witnesses proved). True for schedules that evaluate one document at a time.
* **C13** (A listener added last is notified). False when the listener was removed since the last process_events (witness proved).
* **C14** (process_events is free of undefined behaviour). Undefined behaviour exactly when the first registered listener was removed; harmless on circular list implementations.
* **C24** (Byte order is honoured). False: swap_endianess never stores the swapped bytes. The values survive exactly when every entry is a byte palindrome.
* **C25** (Truncated files are detected). False for every cut inside the data (the rest is read as zero); proved for streams shorter than 24 bytes. For each cut inside the header of a saved matrix the outcome is proved: an exception, undefined behaviour, a column of zeros or a matrix of zeros, depending on the place.
* **C31** (fast_exp is monotone). False across |x| = 100 (witness proved); monotone on [-100, 100] and outside it.
* **C38** (The E step respects its iteration limit and stops at the first converged iterate). False for the multinomial step, which compares with compute_likelihood instead of the tolerance; proved for the other four.
* **C39** (Absent words do not matter). False for the correspondence step (witness proved); proved for the other four.
* **C40** (Empty documents are handled). Proved for the unsupervised step; the fast step reads column -1 of phi when the likelihood is reported (always, by default).
* **C41** (Reporting likelihood does not change the result). False for the multinomial step (witness proved); proved for the other four.
* **C47** (Epochs are independent in the batch M steps). False for an epoch without documents after one with: the unsupervised and multinomial steps then use the buffers as they were left (proved).
* **C48** (The unsupervised M step keeps the model valid). False for a topic that receives no words and for an epoch without documents (proved).
* **C53** (Online minibatch statistics). True of the first minibatch only; later ones include all earlier documents, and the class weights are not used (witnesses proved).
* **C61** (Decision function of an empty document). False: the scores of a document without words are NaN for every model (proved); finite otherwise.
* **C62** (The builder refuses unusable models). Exact characterisation for every history; false for supervised steps chosen with set_e/set_m, which are accepted without eta (proved).
* **C64** (LDAs built from one builder are independent). False: LDAs built from one builder share parameters, steps and event routing (proved for all histories and with a concrete witness). True for different builders and for models passed to initialize_*_from_model.
* **C66** (Reported per-document likelihood is the mean). False: the sum is an int, so each document is truncated and so is the quotient. Proved: the printed number is at least the mean and less than the mean plus two, epochs are independent, whole numbers are exact up to rounding, and when everything is defined. Proved false: -1.5 is printed as -1, documents above -1 print nothing, a large corpus overflows.
* **C67** (Continuing from an unsupervised model loads that model). False: the program reads the value of --continue instead, which is not given, so it always stops with an exception. The calls that follow would be right.
* **C68** (Reported ELBO). False when a word occurs more than once: two terms count it once (exact difference and witness proved).
* **C70** (Listeners may call back into the dispatcher that notifies them). False for EventDispatcher when a listener removes itself (witness proved); holds otherwise and for the thread-safe dispatchers.
* **C71** (Model parameters are never written while a worker reads them). Proved for M steps whose doc_m_step leaves the model alone; false for the online M step.
* **C72** (fit(X), transform and predict work with every E step the builder offers). False: every E step but the unsupervised one casts the document to a ClassificationDocument (proved undefined). Exact characterisation for all corpora: defined iff the steps look at no label.
* **C73** (Round trip on big-endian hosts). False: exactly the matrices whose bytes are all zero survive; the negation is proved for every other matrix.
* **C74** (Files that are not NPY files are rejected). False: the magic string is never compared; the first six bytes have no influence at all. Only the version byte is looked at.
* **C75** (Reported likelihoods are computed from initialised memory). False when the loop stops before the first sweep, and for empty documents (proved).
* **C77** (A line search returns the value at the position it moved to). False for the Armijo search along a direction that is not one of descent (witness proved).
* **C78** (The progress callback is told the state of the optimisation). The norm is of uninitialised memory in the first call and one step old afterwards (proved); value and count are right.
* **C80** (SupervisedMStep accepts documents of any length). False beyond 46340 words: signed overflow (proved).
* **C81** (A document without words does not prevent training). True of FastSupervisedMStep; false of SupervisedMStep and of the online step (proved).
* **C82** (The builder yields parameters whose sizes fit together). False: topics initialised again after eta are accepted with an eta of the old size (proved).
* **C85** (Documents without a label can be passed through fit(X, y)). False: the corpus that fit(X, y) builds has undefined behaviour for negative labels (proved). True for documents from a corpus of the user.
* **C86** (Every E step can be combined with every M step). False: the correspondence M step needs the variational parameters of the correspondence E step (proved). All other pairs are proved defined for any sequence of documents, whenever the E step is defined; the online M step is covered by C52.
* **C87** (Training can be interrupted and continued). False for the online M step, which keeps the counts of all earlier documents (proved with a concrete witness), and for the exponentially decaying weight, which starts again (proved). True for every batch M step with every E step that does not count epochs, for all corpora, schedules, shuffles and splits.
* **C91** (The reported likelihood is a lower bound of the log-probability). False when a word occurs twice: for two copies of a word that one topic of two knows the reported value exceeds the log-probability by more than 1/3 (proved). True for documents without repeated words and any exp and digamma; the evidence lower bound itself is proved to be one, for all variational parameters.
* **C93** (The numbering of the vocabulary is arbitrary). False for the supervised step, which updates gamma from word to word: exchanging two words changes gamma (proved). True for the other four steps, and for the supervised step as long as the words of the document keep their order.
* **C97** (Training is reproducible bit for bit). False with two workers: for every precision of at least two bits three documents are given that yield different topics under two schedules that both can occur (proved). True with one worker, for every M step and arithmetic.
* **C98** (Iterating the supervised E step never makes its bound worse). False when a word is repeated: for a document of three copies of a word one iteration makes the bound worse (proved with exact exp and digamma). True for documents without repeated words, for single sweeps and for whole runs, with exact exp and digamma.
* **C99** (The likelihood that the multinomial and correspondence steps report is their bound). False with several topics: the normaliser of the Dirichlet prior is counted once instead of once per topic (proved: with mu = 2 and two classes the report is too small by (K-1) log 6 / D). The exact formula is proved for documents without repeated words; with repetitions the part of plain LDA deviates as in C68.
* **C101** (The correspondence E step improves a bound of the evidence). False: tau is normalised over the vocabulary, so for a document without repeated words that misses a word it sums to less than one, for one that has all words and a repetition to more (both proved for all models), and the computed bound can exceed the log-probability (proved). True for documents with every word exactly once, where what is computed is also proved to be a lower bound of the log-probability of document and class, as it is for every document if tau is a distribution over its words; the update of phi and gamma improves the bound for every document.
* **C102** (The M steps maximise the bound). False for the topics of the correspondence M step, whose word counts are weighted by tau although tau does not weigh the words in the bound (proved with a witness, for any number of iterations of the E step). True for the unsupervised step, for the multinomial step with mu >= 1 and a weight of one, and for the class parameters of the correspondence step.
* **C103** (Every epoch of training improves the bound). False: the E step starts anew in every epoch and can end at worse variational parameters (proved with a document of one word and two topics, for any number of iterations and any schedule, with exact exp and digamma). True at the variational parameters of the epoch, for all schedules, shuffles and numbers of workers and any exp and digamma.
* **C106** (The class priors of a corpus are the frequencies of its labels, in floating point). False for more than 2^p documents (p = 24): the count of a class stays at 2^p, so that classes of 2^p and 2^(p+1) documents both get prior 1/2. True, with an exact sum in every order, up to 2^p documents.
* **C107** (Which documents report their likelihood is determined by the seed). False with two workers: which documents report depends on the schedule, and with the generator of libstdc++ and the default seed even how many. True with one worker and for the fractions 0 and 1. For every schedule each number is used exactly once and each document gets its share.
* **C108** (The tolerance of the E steps is a relative one). False: the change compared with the tolerance is the mean absolute change. Proved for all five steps: the rule is the relative one with the tolerance multiplied by the number of topics and divided by the sum of alpha and the number of words. A short document can be returned without a single iteration, a long one is iterated longer than documented.
* **C109** (Arrays of every shape are loaded or refused). False: arrays without dimensions or without elements are undefined behaviour, arrays of two dimensions with 2^31 elements or more give an exception or undefined behaviour depending on the remainder modulo 2^32, and with three dimensions a file can be taken for a much smaller one. Proved: an array of two dimensions that is loaded has its own shape.
* **C110** (Gradient descent does not increase the objective in floating point). False: when the decrease demanded of the first step (of twice the length of the first step documented) is below a quarter of the last place of the value, that step is made without evaluating the objective, which can increase, while the value returned is the old one, so that the M step stops there. Proved: this is the only way in which the objective can increase; and with tau at most 1/2 every search ends, for every function and direction.
* **C112** (An exception inside a call leaves the object usable). False: an exception while documents are processed (a listener, doc_m_step) or when a thread but the first is created leaves joinable threads, so that the destructor and the next call terminate the program; one while documents are queued or when the first thread is created leaves jobs, and then every later call hands results of other documents to the M step, for ever. Proved: an exception before anything is queued, or of the batch M step or a listener of the end of the epoch, leaves an object whose later calls do what they do on a new one.
* **C113** (With enough iterations the E step ends because it has converged). False for the fast supervised step: with two topics, two classes and a document of one word it alternates for ever between two results that are far apart, whatever the (small) tolerance, so the result depends on whether the limit of the iterations is odd. Proved: for the unsupervised step with any functions for which exp(psi(x)) grows with x, in particular the exact ones and fast_exp and digamma as they are (prior at least 1/50, at most 10^40 words); for the multinomial step with exact functions, where compute_likelihood is the tolerance (C38); and for the supervised step with exact functions, for documents whose words are known, repeated ones included, where the number of iterations also depends on the range of the classification parameters. Not treated: the correspondence step, and the multinomial and the supervised step with fast_exp.
* **C114** (Every pass goes through the documents in a fresh random order). False for partial_fit(X, y): every call makes a corpus of its own with the default seed, so all calls go through the documents in the same order, the one of the first epoch of fit; the seed of the LDA has no influence. Proved: a shuffle leads to every order for exactly one choice of the numbers, hence the documented probability, and the epochs of fit have every sequence of orders for exactly one choice. That the numbers of the generator are equally likely is assumed, and so is the way in which std::shuffle uses them (Fisher-Yates).
* **C115** (The numbering of the classes is arbitrary). False for the supervised steps when a class has no document in the corpus or in a minibatch: the weight of a class depends on the highest number among the labels, so the same document with label 1 in place of 0 moves eta half as far (C115_online_negation); and when two classes have the same score predict takes the one with the smaller number (C115_ties_negation). Proved: all E steps, the multinomial and correspondence models without a condition, the other M steps and all of training when the highest number in use is the same in both numberings, which it is if every class has a document, and predictions when one class is best.
* **C116** (The numbering of the topics and of the vocabulary does not matter to training). False for the vocabulary with the supervised E step, whose fixed point visits the words in order (C93_supervised_depends). Proved for every M step and for training with any E step that commutes with the renumbering; the E steps of LDA, fLDA, multinomial and correspondence LDA do, and the supervised one does for the topics (C116_slda_partial). The scores of decision_function are the same numbers, finite or not.
* **C117** (predict is the arg max of transform(X)ᵀ·eta, as the guide says). False: the code subtracts the prior alpha from the variational parameters, the formula of the guide does not, and for short documents they choose different classes (C117_negation, with the expectation step and its defaults). Proved: exactly which class is predicted; the formula of the guide is right if the prior contributes the same to every class, and for each document for which its best class is ahead by more than the prior's contributions differ.
* **C119** (Training and transform are free of data races). Holds for all batch maximisation steps (C119_no_race), where race and happens-before are those of the C++ standard. False with FastOnlineSupervisedMStep: the calling thread updates the model parameters while workers read them (C119_online_race); that is the only location (C119_races_partial). Listeners may call back into the dispatcher (add, remove, dispatch), and other threads may do the same at any time. Assumes that no worker has the thread identifier the dispatcher stores (C120), and that a constructing thread that is not the calling one does not dispatch during a call: it would run the listeners itself. The accesses of Eigen, of the standard library and of the listeners of the user to globals of their own are not modelled.
* **C120** (Listeners never run on a worker thread). Holds while the thread that constructed the object has not ended, and when the system never gives an identifier twice. False otherwise: the dispatcher stores the identifier of the constructing thread only, a worker that is given the same identifier later runs the listeners itself, at the same time as the caller (C120_reused_identifier). Also events/Events.hpp says that process_events can only be called on the creating thread; any thread that trains does it (C120_caller_runs_listeners).
* **C122** (No E step mixes two models and no result is lost, at the level of single reads and writes). False for the online M step, which writes the model while workers read it: a document can be used with a result that comes from no single model (C122_online_mixes_models). Proved for the batch M steps, by simulation in both directions with the machine of C01-C08, so that those claims hold for the small steps as well.
* **C123** (An interrupted training leaves no damaged model behind). False: saving empties the file first, so that an interruption can lose the old model (C123_old_model_lost), and a file cut inside its last array is loaded without an error with zeros at the end of eta; a full disk has the same effect and is not reported (C123_cut_loads). Proved: nothing else can go wrong. Until fit returns the old model is there, finished snapshots stay, no file mixes two models, and what is loaded from a cut file has the alpha and beta of the new model and a beginning of its eta.
* **C124** (transform writes the topics of every document, whatever the number of workers). False: documents over another vocabulary than the model's are not refused (C124_shapes), slda and fslda refuse a file with documents only, though transform does not use labels (C124_labels_wanted), and with --workers=0 the program does not end (C124_no_workers). Proved: in all other cases with at least one worker the output is the array that the statement describes, bit for bit the same for every number of workers and schedule.
* **C125** (train writes the model after the asked number of epochs). False: with --workers=0 the training does not end (C125_no_workers), and what the disk refuses goes unnoticed (C123). Proved for exact sums, on a disk that grants everything: with at least one worker the files are those of the sequential loop, undefined behaviour of a maximisation occurs under all schedules or none, and for lda train it does not occur. In floating point the order of the sums matters (C08, C97).
* **C126** (The number of words of a document). False for documents of more than 2^31-1 words: no order gives their number (C126_too_many), the additions of C++ are undefined behaviour in every order (C126_undefined), and if they wrap the number and with it the shares of the words are negative (C126_misused). Counts below zero are not refused: the sum may then depend on the order (C126_order), and a document with a total of -1 makes digamma divide by zero for every topic (C126_negative). Proved: for all documents whose counts add up to an int every order and grouping gives the sum.
* **C127** (No word of a document is lost to underflow). False: with the prior 1/K of the builder and K at least 715 times (with float 92 times) the number of words plus one, the exponentials of all topics underflow to zero, normalize_cols skips the zero columns, and from the first pass on the result is the prior, whatever the model: all words are lost without a message (C127_lost_double, C127_lost_float; e.g. documents of one word and 1430 topics, or with float of four words and 500 topics). Proved: a pass accounts for all words unless all weights of a word underflow, and none do if the prior is at least 1/97 (float: 1/29) and every word has probability at least 2^-800 (2^-85) in some topic, or if the prior is at least 1/697 (1/84) and the probability at least 2^-63 (2^-23), or with the prior 1/K of the builder for documents of any length up to 1392 topics (167), if every entry of beta is zero or at least 2^-63 (2^-23) and every word has some topic; so for documents of one word the limit is between 1392 and 1430 topics (167 and 184). For longer documents the numbers of topics in between are not treated.
* **C128** (Corpora show the caller's data as they are, documents keep what they were made from, and nothing is used after its end). False in three ways. The pointer to its corpus that a document returns is a shared_ptr with a deleter that does nothing: it does not keep the corpus, and every use is undefined once nobody else has the corpus (C128_orphan). The corpora refer to the caller's matrix: after a call that was left by an exception the queue still holds jobs, and if that matrix ends the next call is undefined whatever its own corpus (C128_leftover). size() follows the matrix but the index vector does not: with more columns than at construction training is undefined (C128_grown). Besides, the class priors are those of the labels at construction, not of the present ones (C128_priors). Proved: documents keep their words and class in every history (C128_document); for a caller who lets matrices and labels outlive the corpora and the jobs that refer to them, keeps their sizes and uses the corpus of a document only while somebody owns it, no history is undefined (C128_safe_partial), and training gets the present documents, each once (C128_fit_partial).
* **C129** (The fast supervised step is defined and finite for every model of finite numbers). False: the softmax of the class scores is computed without subtracting their maximum. If all the weights of one class are 900 or more (110 with float) it is infinity divided by infinity, and if all weights of all classes are -900 (-110) or less it is zero divided by zero; NaN then reaches fast_exp, whose conversion to an index is undefined, in the first pass and for every document with words (C129_over_*, C129_under_*). Small weights do not help, since they are divided by their maximum: with weights a for the class of the document and -1 for the other, 2^-30 <= a <= 2^-20, phi is NaN after the first pass and the second one is undefined (C129_ratio_*). Proved: weights of absolute value at most 500 (50 with float) whose ratio to their maximum times the weight of the classes is at most 250 (16) keep all numbers finite and all passes defined (C129_double_partial, C129_float_partial). What lies between these bounds is not treated.
* **C130** (Words that no topic knows do no harm). False: the supervised step divides by the sum of the products of an unknown word, which is zero, and NaN reaches fast_exp, whose conversion to an index is undefined. Every run with two or more iterations that do not stop at the first test is undefined as soon as there is one unknown word, whatever the model, and a run with one iteration if another word follows it (C130_supervised_undefined, C130_supervised_first). This happens when the supervised step continues from topics learnt on other documents. The fast step stays finite, but reports NaN as the likelihood (C130_fast_report), and averages over all words of the document, so that unknown words change the topics of the known ones (C130_fast_differs). The unsupervised step starts from the number of all words, so that with a positive tolerance the number of iterations may differ (C130_tolerance), and with a prior that differs between the topics its first iteration does (C130_asymmetric). Proved: with a symmetric prior and no early stop the unsupervised, correspondence and multinomial steps return what they return for the document without the unknown words, the unsupervised one also the same likelihood. The multinomial step with fast_exp instead of the exponential is not treated. Definedness of these steps is C35.
* **C131** (Fitting the classifier never leads to infinite or undefined values). False: the line search stops when the new value is not greater than the bound, and NaN is not. With a penalty of 1000, two documents and weights of absolute value one it accepts a step to NaN, the M step ends there and the documented objective has grown (C131_nan). If the objective is not finite at the start the M step leaves the weights as they are and reports success with an infinite value, plus infinity (better than everything) if all weights are too small (C131_stops, C131_overflow, C131_underflow). Proved for penalties up to one (the default is 0.01) and weights whose sum over the classes is not negative in any topic, such as the initial zeros: the sum stays so, hence some exponential is at least one, values are finite or plus infinity and never NaN, the search rejects the infinite ones, and the M step ends. Only the range of the exponential is limited here, the other operations are exact; the second order objective is not treated.
* **C133** (A listener may use the model whose event it handles). False while documents are processed: a call made by a listener of an ExpectationProgressEvent, or of the MaximizationProgressEvent of an online M step, or of an event of a nested call, assigns to threads that are joinable and std::terminate is called, always; so does a call by another thread between the creation of the first worker and the last join. True for the events of m_step and of the end of an epoch: the nested call is answered correctly and the outer call is an execution of the call without it. A nested call of partial_fit from the event that ends an epoch trains as if it had been made after the outer one, at any depth, but listeners called later get that event with the parameters of the later epoch (C133_continued_partial, C133_seen); from an event of m_step it is not treated. Which documents report their likelihood later does change, as a nested call takes random numbers of the E step (C107).
* **C134** (The likelihood reported by the supervised steps is a lower bound of the log-probability). False when a word occurs twice: for two copies of a word that one topic of two knows, and parameters of the classes that are still zero, both steps report more than the log-probability plus 3/10 (proved). True for documents without repeated words and any exp and digamma functions, with an error for exp that is a parameter (`fast_close` bounds it for fast_exp). The bound that the supervised step improves (C98) is proved to be a lower bound for every document, repeated words included: the expected normaliser with equal topics for equal words is at least the one with independent topics.
* **C135** (The likelihood reported by the multinomial step is a lower bound of a log-probability). False: what the model puts in the place of the probability of the class, the product of the votes of the words divided by powers of the prior, is no probability. With one topic, one word and two classes of prior 1/2 a document of three words has probability one, but the value reported exceeds the share by more than 1, and the excess grows without limit with the length of the document (proved, for any exp and digamma). True: the bound for all documents, and the report for documents without repeated words, with the expectation of that product in the place of the probability; it is a probability for documents of one word, and at most one if no topic favours the class over its prior, where the report is at most the log-probability of the words.
* **C136** (The supervised step is defined and finite for every model of finite numbers). False: the exponentials of the weights times the share of a word in the document are not guarded. One weight of 711 (float: 90) in relation to that share makes a product infinite, then the normalised h infinity times zero, and NaN reaches fast_exp, whose conversion to an index is undefined; a class whose weights are all that negative makes the product zero and divides zero by zero. This holds for every device, prior, tolerance that does not stop at the first test, class of the document and rest of the model (C136_over_*, C136_under_*). Proved for moderate models: weights of at most 8, and at most 5/2 (float: 3/2) in relation to the share of the most frequent word, priors of at least 1/200 (1/20), no word of the document with probability below 2^-60 (2^-23) in all topics, and a number of updates for which the errors of gamma, which accumulate because it is updated by differences, stay below half the prior; the bound of the accumulated error is part of the statement. Not treated: weights in between. Documents without words are C40 and C75, words that no topic knows C130.
* **C137** (The multinomial and the correspondence steps are defined, finite and lose no word for every model). False: the logarithm of the probability of the class is not guarded. If a topic does not produce the class (probability zero, as for mu = 1, a class without documents or parameters of a logistic model), the correspondence step multiplies zero by minus infinity and passes NaN to fast_exp, whose conversion to an index is undefined; so does the multinomial step with eta_weight = 0, which is meant to ignore the class, and both steps for negative weights. If no topic produces the class, or if eta_weight times the logarithm is below -1200 (float: -160) for all topics, every exponential of the multinomial step is zero, every word is lost and gamma is the prior, whatever the document. Proved otherwise: the multinomial step for priors of at least 1/200 (1/16), eta_weight > 0, eta_weight*(1 - log eta) of at most 450 (24) for the topics that produce the class (zeros are allowed), and for each word of the document a topic that produces the class and the word with probability at least 2^-60 (2^-23); the correspondence step for priors of at least 1/50 (1/16), probabilities of the class of at least 2^-62 and of each word of the document of at least 2^-900 (2^-50) in some topic. Not treated: weights in between.
* **C138** (The likelihood reported for a document is a number). False for the two steps with classes: the logarithm of eta is guarded nowhere and the prior term sums it over all topics and classes, so one zero or negative entry of eta, of any class, makes the report of every document infinite or NaN, and so does a zero prior of the class of the document. Without smoothing (mu = 1, where the M step leaves eta zero for classes without documents) the report is NaN for every document, which is what is dispatched for documents whose likelihood is not computed. Proved otherwise: the unsupervised step and its report for priors of at least 1/512 (float: 1/84), probabilities of each word of the document of at least 2^-60 (2^-23) in some topic and, in float, at most 2^24 entries of beta; the reports of the other two for the models of C137 with all entries of eta and the prior of the class in [2^-1074, 1], mu in [2^-20, 2^20], at most 2^16 classes and, in float, at most 2^24 entries of beta and of eta. The reports are at most 2^105 or 2^112 in absolute value. Not treated: smaller priors and probabilities.
* **C139** (Training goes on for as long as one likes). False: the M step divides the rows of its sums by their totals without a comparison with zero, so a topic that knows no word of the corpus is NaN after the first epoch, and in the next one fast_exp indexes its table with NaN, which is undefined, for every document with words (C139_unused). Proved for priors of at least 1/50 (float: 1/16), a start where each word of the corpus has a topic with at least 2^-100 and each topic a word of the corpus with at least 2^-21, at most 2^20 documents, topics and words and documents of at most 2^31 words (float: at most 2^24 entries of beta): after any number of epochs the topics sum to one up to (3V+5) units of rounding, each word of the corpus has a topic with at least 2^-100, all other words have probability zero, and the steps and reports of all documents are finite. Not treated: smaller priors and probabilities.
* **C140** (Training with classes goes on for as long as one likes). False without smoothing (mu = 1): a topic that has no word of the documents of a class gets a weight of zero for it in the first epoch; in the second one the logarithm is minus infinity, zero times minus infinity is NaN and fast_exp indexes its table with NaN, which is undefined, in the correspondence step (C140_correspondence_unsmoothed); the multinomial step reports NaN for every document from then on (C140_multinomial_unsmoothed). Proved in double for smoothing of at least 1 + 2^-10 (correspondence: 1 + 2^-8), priors of at least 1/100 (1/50), class weights eta_weight of at most 7, a start with class weights of at least 2^-81 (2^-62) where each word of the corpus has a topic with at least 2^-95 (2^-280), at most 2^20 documents, topics and words, 2^16 (2^10) classes and documents of at most 2^31 (one to 2^20) words. Not treated: float, and values in between.
* **C141** (Online training keeps the classifier bounded). False if learning rate times penalty is at least 2 (1 + momentum): eta grows beyond every bound from zeros for documents of one class (C141_diverges_from_zeros) and, above that, for all documents if the entries of some topic do not add up to zero at the start (C141_diverges); the penalty drives the swing, so that more regularisation makes it worse. Proved for every positive product below that (C141_bounded_partial), and with the bound minibatch / penalty, which holds for the scores too, if it is at most (1 - sqrt(momentum))^2, as with the defaults (C141_short_steps_partial). Without a penalty there is no bound (C141_no_penalty), so the condition is exact for two classes and minibatches of one document (C141_iff). Over the real numbers.
* **C142** (The digamma function returns). False for numbers below -2^prec - 2 (prec is 24 for float, 53 for double) and for minus infinity: adding one does not change them or stops changing them, and the loop runs forever (C142_iff gives the exact condition, C142_ninf). Hence a document is never finished if alpha is at most -2^(prec+2) (C142_negative_prior). Proved for all other numbers: within 2|x| + 15 rounds (C142_negative_partial), at most seven if not negative (C142_nonneg) and none for NaN and infinity (C142_special). With alpha and beta not negative all calls of the two steps take at most seven rounds (C142_fast, C142_unsupervised); the supervised step subtracts from gamma, and its calls take at most 2 i N + 15 rounds in pass i over a document of N words, as long as i N is at most 2^prec (C142_supervised).
* **C144** (A corpus with every document repeated trains the same model). False for the class parameters with smoothing: the number added to each count does not grow with the corpus, so r copies trained with mu' equal one copy trained with mu exactly when mu' - 1 = r (mu - 1), and with the same mu > 1 a concrete corpus gives another classifier. The classifiers trained by gradient: with the penalty multiplied by r as well, the objective is multiplied by r and has the same minima (C144_objective), but the descent with a limited number of steps ends elsewhere, because its first step is as long as the gradient: from zeros, one step on r copies of a document ends at r times the weights (C144_descent, r up to 500). Exact numbers.
* **C145** (With one topic training counts words). Proved for LDA and the multinomial model; the smoothing then amounts to K (mu - 1) words per class. False for the correspondence model if a word of the vocabulary does not occur: that word takes a part of the weights of the words of a document, a part that differs between the classes, and a corpus of two documents gives 20/27 instead of 2/3. It holds there if every word of the vocabulary occurs. Exact numbers.
* **C146** (Exit status 0 means that the result has been written). False: nobody looks at the state of the streams after writing, so the status is 0 for every pattern of refusals, also if the file could not be opened or is empty (C146_unnoticed). Proved: what the file holds for every pattern, namely the part of the result before the first refusal; it is the whole result exactly if nothing was refused, or the opening was refused and the file held the same already.
* **C147** (Words that the topics do not tell apart are interchangeable). Proved for the unsupervised, fast supervised and multinomial steps and for an iteration of LDA. False for the correspondence step, which divides the class among the words of the vocabulary (a word that occurs twice and two variants that occur once each give another gamma), and for the supervised step, where the variant decides whether the word is looked at before or after another one. The likelihoods that are reported are not claimed to agree (C68). Exact numbers.
* **C148** (The weights of a topic keep adding up to zero over the classes). Proved for the descent on the logistic regression with any line search along the gradient, for training with FastSupervisedMStep and SemiSupervisedMStep, and for the online step on documents with words and labels that are classes. False for SupervisedMStep: from weights t and -t one step on a document with one word leaves weights that add up to less than zero, for every t that is not zero. Exact numbers.
* **C149** (Only the differences between the classes matter). Proved for the predictions of documents with words, for the M steps with the first order objective and without a penalty (in every state, and for the online step for every history), and, with the exact exponential, for the supervised E step if the same number is added for all topics. False with a penalty. False for the fast E step, which divides the weights by the greatest of them: C149_fast_step says exactly how the strength of the class changes. False for the supervised E step if the numbers differ from topic to topic, even with a single class. False for the objective of SupervisedMStep, without a penalty too: its second order terms contain the weights themselves.
* **C150** (The class of a document draws it to the topics that speak for the class). False for the supervised step: with one word, two topics and two classes a document gets less of the topic that speaks for its class than from plain LDA (proved). Proved for the other steps with two topics, the exact exponential, any digamma function that does not decrease, and a tolerance of zero, so that both loops make all their passes; for a single pass of the fast step with any number of topics. With more topics the whole loop is not treated: there a topic can lose to a third one what it gains from a second.
* **C151** (digamma gives larger values for larger arguments). False: at each of the integers 1 to 7, where the number of steps of the recurrence changes, the function falls by the same amount, between 3e-11 and 5e-11 (proved). Proved between neighbouring integers and for all arguments from seven on; over any distance the function falls by at most 5.7e-11.
* **C152** (Documents without words change nothing). Proved for LDA and for the multinomial and correspondence models, classifier included (the documents without words need labels the model knows). False for the classifiers trained by gradient: such a document counts for the weights of the classes, so that the objective changes by more than a constant (proved; with given weights it would be a constant, C81). If the corpus has no other documents, the M step normalises zeros, which it does not do for an empty corpus; that case is left out.
* **C153** (Online training forgets at the rate of beta_weight). True of the topics at the start: their part is exactly the power of beta_weight. False of the documents: the counts b_ are never set back to zero (C53), so that after N minibatches the share of a word in a topic is at least 1 - beta_weight^N times what it got in the first minibatch, among all words that the topic ever got (C153_lasting); with one topic, exchanging the word of the first document makes a difference of (1 - beta_weight)/(n + 1) or more after n further documents, which no multiple of beta_weight^n bounds.
* **C154** (A class without documents is never predicted). Proved for the multinomial and correspondence models with a smoothing parameter above 1 and class probabilities at the start that are positive, and for fast and semi-supervised LDA trained from weights zero with a regularization penalty from 0 to 1 and at least one iteration of fit and of the descent: all weights of the class are then negative while those of a topic add up to zero over the classes (C148). C154_training and C154_semi are the invariant for every E step that does not put gamma below alpha. Not so without training: with weights zero the first class is predicted for every document, even if no document has it (C154_untrained_false). With a penalty above 1 the step of the line search can overshoot zero, so that the weight of a class without documents changes its sign (C154_penalty_false). The online step is treated likewise, for every history of calls and for settings with rate * penalty <= (1 - sqrt(momentum))^2, which the defaults meet (C154_online, C154_online_predict_partial); if rate * penalty is two or more, a class without documents is predicted after two documents (C154_online_false). For the second order approximation of supervised LDA the weights of such a class are negative, too, whatever the sign of the other weights, because 1 + s + s^2/2 is never negative (C154_second_order, C154_slda_partial); missing there is that some other class has a higher score, as the weights of a topic need not add up to zero (C148_second_order).
* **C155** (Semi-supervised training is the training of its parts). The first half is proved, with the E steps that the builder uses by default. The second half is false: without any class the m_step asks for the greatest of no labels, so fit is undefined from the first iteration on, for every E step (C155_unlabelled_false, see also C51_no_labels).
