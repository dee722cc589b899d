# Formal model of TheanoLM: design

The subject is the Python source in `/repo` (senarvi/theanolm).  The model is written in Lean 4 under `lean/Verif/`.  The code is
not run; every model definition cites the file and lines it was read from, and says where it is simplified.

## Layout

* `Verif/Model/*.lean` definitions that mirror the Python functions branch by branch.  Exceptions are values (`Except Err a`).
* `Verif/Lemmas/*.lean` helper lemmas.
* `Verif/Props/*.lean` the property theorems.  Each theorem is preceded by the English claim.  The specifications (what the English
  says, without the functions of the model) are in the `*Spec.lean` files or at the top of the file.  Each group of theorems is
  followed by `example`s that show that the hypotheses can be met, and by the witnesses of violations (`*_violated*`).
* A theorem whose name ends in `_partial` proves the property under conditions that its comment lists.  In most cases the code
  violates the property without the conditions, and there is a `_violated` theorem with a concrete witness.
* `properties.jsonl` the properties, `MANIFEST.json` their status and theorem names, `seeded/LOG.jsonl` the wrong programs that the
  theorems were tested against.

## Trusted base

1. **Lean's kernel** (4.33.0) and the definitions of Mathlib that the statements use (lists, integers, rationals, reals, `exp`,
   `log`, sums, permutations).
2. **Axioms**: every property theorem depends on at most `propext`, `Classical.choice` and `Quot.sound`.  About 30 of them use
   only `propext` and `Quot.sound`, and three only `propext`.  No other axioms are declared; there is no `sorry`, `native_decide`,
   `bv_decide`, `implemented_by` or `unsafe`.
3. **The model is a faithful reading of the code.**  This is not machine-checked; the citations are there so that it can be checked
   by reading.  The parts that are trusted in particular:
   * the meaning of Python, NumPy, Theano, h5py and `shlex` functions, as far as the code uses them (listed below);
   * exact arithmetic in place of floating point, where a definition does not say otherwise.

### Conventions of the model

* Python `str` is `List Char` (`Str`).  Decoding of bytes is not modelled.  Files are lists of lines, or lists of characters
  where the line structure matters.
* Python ints are `Nat` or `Int`.  Floating point numbers are exact: a type with the operations needed (`Semiring`, ordered field,
  `Rat` or `Real`).  Rounding and overflow are not modelled.  Infinities and nan are modelled where the code depends on them
  (`Flt`, Model/Flt.lean), for instance in the text scorer, the costs and the interpolation.
* Conversions between numbers and text (`float()`, `str()`, `format`) are parameters, assumed to be inverse to each other where a
  round trip is claimed (`NumText.Faithful`, `SlfFaithful`).  Instances that meet the assumptions are given.
* Theano graphs are read as the functions they denote, on lists of lists.  Shapes of matrix products are not checked by the model:
  `C80_parameters` proves that the parameters of a created network have the shapes that the layers assume.  `theano.scan` is a
  fold; optimizations of the graph are not modelled.
* Random generators are arbitrary inputs of the model: a theorem holds for every outcome (with the documented contract of the
  function, for instance `ShuffleOutcome`).
* HDF5 groups are finite maps from names to attributes, datasets and groups.  Broadcasting and path normalization are not modelled.
* Python dictionaries are association lists in insertion order.  Hash collisions of the decoder's tokens are assumed absent.
* Loops without an obvious bound have fuel; running out of fuel is a separate result, and it is proved not to happen (or the
  condition for termination is a part of the theorem).  Python's recursion limit is a parameter where it matters (`depth` in the
  rescored lattice), otherwise not modelled.
* Logging, debug output, memory statistics, command line parsing and the error messages are not modelled; the class of the exception
  is.

## What is modelled

| Model | Code |
|---|---|
| Parsing | parsing/functions.py, the pointers of parsing/shufflingbatchiterator.py |
| BatchIterator, PrepareBatch | parsing/batchiterator.py, linearbatchiterator.py, shufflingbatchiterator.py, scoringbatchiterator.py |
| Vocabulary | vocabulary/vocabulary.py, wordclass.py |
| Statistics | vocabulary/statistics.py |
| WordClasses, WordClassFile | wordclasses/bigramoptimizer.py, numpybigramoptimizer.py, theanobigramoptimizer.py, functions.py, the loop and the saving of wctool.py |
| Lattice, KaldiLattice, SlfLattice, SlfWrite, LatticeBatch | scoring/lattice.py, kaldilattice.py, slflattice.py, latticebatch.py |
| Decoder, DecodeCommand, DecodeOutput | scoring/latticedecoder.py with an abstract network step; the options, the loop and the output of commands/decode.py |
| RescoredLattice | scoring/rescoredlattice.py |
| TextScorer, MergeSubwords, ScoreText, ScoreOutput | scoring/textscorer.py, commands/score.py |
| LanguageModel | scoring/textscorer.py with the network of network/network.py in evaluation |
| NetworkDecoder | scoring/latticedecoder.py with the network of network/network.py: the step function for several tokens |
| TextSampler | textsampler.py, commands/sample.py |
| Schedule, Trainer | training/trainer.py, stoppers.py |
| TrainerState | training/trainer.py `get_state`, `_reset_state`, `_set_candidate_state`; the states of the optimizers and the training data iterator; parameters created by the optimizers |
| TrainCommand | commands/train.py: the vocabulary, the checks of the arguments, and the message after training |
| Recipes | recipes/common: ngramcounts.py, wordclasses.py, fix-class-probabilities.py |
| Optimizer, Cost, SamplingTensors | training/*optimizer.py, cost.py, network/samplingoutputlayer.py, `create_optimizer` |
| Architecture | network/architecture.py |
| Network, Devices, OutputLayer, NetworkCreate, NetworkState, RecurrentState | network/*.py: creation, evaluation in both modes, sampling, saving and loading |
| Parameters, Interpolation | backend/parameters.py, probfunctions.py, classdistribution.py, conv1d and norms of operations.py, gpu.py |
| PackageArchitecture | network/architecture.py `from_package`, the files architectures/lstm300.arch and lstm1500.arch |
| NumParams | `num_params` of the layers, network/network.py:205 |
| InitialValue | network/weightfunctions.py `matrix_from_value`, network/basiclayer.py `_init_bias` (one-dimensional shapes) |
| TextFile | backend/filetypes.py `TextFileType` for reading; the memory map of training files |
| TestValue | backend/matrixfunctions.py |
| Convolution, WordClassEq | backend/operations.py `conv2d`, `conv1d` (not the convolution of Theano itself); comparison in vocabulary/wordclass.py |

## What is not modelled

* commands: argument definitions (`add_arguments`), `version`, logging of options; of `train` only the parts listed above.
* backend: `debugfunctions`, `BinaryFileType`, `TextFileType` for writing, `log_free_mem`.
* network: the random numbers that initial weights are made of (any values), profiling, the graph of gradients
  (`theano.gradient.grad` is an arbitrary function in the optimizers).
* scoring: `_debug_log_batch`, `_log_stats`, `Token.__str__`.
* `docs`, `kaldi`, `setup.py`, shell scripts in `recipes`.

## Properties

Status, model, method and theorems per property.  (The plan that was committed before the proofs is in the history of this file.)

| Property | Status | Title | Model | Proof | Theorems |
|---|---|---|---|---|---|
| C01 | proved | Utterances are correctly delimited | Parsing | case analysis on the first and the last word; idempotence by rewriting | `TheanoLM.C01_no_error`, `TheanoLM.C01_blank`, `TheanoLM.C01_words`, `TheanoLM.C01_delimited`, `TheanoLM.C01_idempotent` |
| C02 | proved | Sentence starts are exactly the line starts | Parsing | induction on the characters of the file: the pointers split the file to its lines | `TheanoLM.C02_positions`, `TheanoLM.C02_lines_cover`, `TheanoLM.C02_one_line` |
| C03 | proved | One pass over the data delivers every long-enough sequence once and in order | BatchIterator | invariant of the reading loop: delivered sequences ++ buffered ++ remaining lines | `TheanoLM.C03_pass`, `TheanoLM.C03_shuffled_pass`, `TheanoLM.C03_zero_length_diverges` |
| C04 | partial | No word of an utterance is lost by sequence splitting | BatchIterator | same invariant; the lost word is a witness | `TheanoLM.C04_partial`, `TheanoLM.C04_violated` |
| C05 | proved | The length of an iterator is the number of batches it will return | BatchIterator | `__len__` runs the same loop; equality of the two runs by induction | `TheanoLM.C05_len`, `TheanoLM.C05_len_shuffled` |
| C06 | proved | Every pass over the data is the same | BatchIterator | the state after the last batch is the reset state | `TheanoLM.C06_passes` |
| C07 | proved | Mini-batch matrices represent the sequences exactly | PrepareBatch | index calculations on the matrices | `TheanoLM.C07_training`, `TheanoLM.C07_scoring`, `TheanoLM.C07_empty`, `TheanoLM.C07_file_ids` |
| C08 | proved | Word IDs in training batches are always valid network input | PrepareBatch, Vocabulary | membership of `words_to_ids` in the shortlist range | `TheanoLM.C08_valid_ids`, `TheanoLM.C08_any_id`, `TheanoLM.C08_words_to_ids` |
| C09 | partial | Restoring a training position resumes the pass exactly | BatchIterator | two witnesses of violation; refinement for a state with an empty buffer | `TheanoLM.C09_partial`, `TheanoLM.C09_rest`, `TheanoLM.C09_restorable`, `TheanoLM.C09_violated_buffer`, `TheanoLM.C09_violated_eof` |
| C10 | proved | A shuffled epoch samples each file as requested | BatchIterator | the outcome of the generator is an argument constrained by `ShuffleOutcome`; permutation and nodup arguments | `TheanoLM.C10_samples`, `TheanoLM.C10_constructor` |
| C11 | proved | Word IDs identify words | Vocabulary | invariant of all the constructors (`Constructible`) | `TheanoLM.C11_ids` |
| C12 | proved | Special tokens are always in the shortlist | Vocabulary | invariant of all the constructors | `TheanoLM.C12_special` |
| C13 | partial | Class membership probabilities form a distribution in each class | Vocabulary | sums over the class after normalization; witness for negative probabilities | `TheanoLM.C13_sums`, `TheanoLM.C13_recomputed`, `TheanoLM.C13_counts`, `TheanoLM.C13_file_partial`, `TheanoLM.C13_violated` |
| C14 | partial | Unigram probabilities are relative frequencies that exclude the start-of-sentence token | Vocabulary | sum of relative frequencies; witnesses for corpus counts | `TheanoLM.C14_partial`, `TheanoLM.C14_counts`, `TheanoLM.C14_violated_sos`, `TheanoLM.C14_violated_zero` |
| C15 | proved | A saved vocabulary is restored identically | Vocabulary | round trip through the HDF5 state by list extensionality | `TheanoLM.C15_round_trip`, `TheanoLM.C15_incompatible` |
| C16 | proved | Frequency-based classes are balanced | Vocabulary | counting words per class in the round-robin loop | `TheanoLM.C16_balanced`, `TheanoLM.C16_default`, `TheanoLM.C16_zero` |
| C17 | proved | Shortlist and out-of-shortlist probabilities form a distribution | Vocabulary, TextScorer | splitting the sum over the vocabulary to the shortlist and the rest | `TheanoLM.C17_distribution`, `TheanoLM.C17_not_counted` |
| C18 | partial | Vocabulary files with errors are rejected | Vocabulary | characterization of the accepted files | `TheanoLM.C18_contents`, `TheanoLM.C18_probs`, `TheanoLM.C18_accepted`, `TheanoLM.C18_rejected_partial`, `TheanoLM.C18_violated`, `TheanoLM.C18_violated_zero` |
| C19 | proved | Corpus statistics are exact counts | Statistics | fold invariants | `TheanoLM.C19_words`, `TheanoLM.C19_bigrams`, `TheanoLM.C19_sums` |
| C20 | proved | Incrementally maintained class statistics stay exact | WordClasses | refinement: the tables after a move equal those computed from scratch, by induction on the moves | `TheanoLM.C20_exact`, `TheanoLM.C20_recomputed`, `TheanoLM.C20_assignment` |
| C21 | partial | The evaluated gain of a move is the exact change of the log likelihood | WordClasses | algebraic identity over the reals for x log x | `TheanoLM.C21_partial`, `TheanoLM.C21_log_likelihood`, `TheanoLM.C21_defined`, `TheanoLM.C21_violated` |
| C22 | proved | Class optimization terminates at a local optimum | WordClasses | strict increase over finitely many partitions; local optimum from the last pass | `TheanoLM.C22_increase`, `TheanoLM.C22_terminates` |
| C23 | proved | Class optimization never touches special words and never empties a class | WordClasses | invariant over arbitrary sequences of moves | `TheanoLM.C23_special`, `TheanoLM.C23_step` |
| C24 | partial | Lattice nodes are processed in topological order | Lattice | worklist loop with fuel: invariant and sufficiency of the fuel; witness | `TheanoLM.C24_partial`, `TheanoLM.C24_terminates`, `TheanoLM.C24_cycle_exists`, `TheanoLM.C24_topological`, `TheanoLM.C24_complete`, `TheanoLM.C24_cycle_omitted`, `TheanoLM.C24_violated` |
| C25 | partial | Kaldi lattices survive a write/read round trip | KaldiLattice | text round trip line by line; witness for the initial node | `TheanoLM.C25_partial`, `TheanoLM.C25_same_initial`, `TheanoLM.C25_violated` |
| C26 | partial | Invalid Kaldi lattices are rejected | KaldiLattice | fold invariant over the lines; characterization of the links | `TheanoLM.C26_partial`, `TheanoLM.C26_no_links`, `TheanoLM.C26_bad_fields`, `TheanoLM.C26_violated` |
| C27 | partial | Invalid SLF lattices are rejected | SlfLattice | fold invariant over the lines, visit invariant (`VisitInv`), termination of the visits | `TheanoLM.C27_partial`, `TheanoLM.C27_terminates`, `TheanoLM.C27_violated` |
| C28 | proved | Jobs partition the lattices | LatticeBatch | index arithmetic of the slice | `TheanoLM.C28_jobs`, `TheanoLM.C28_invalid` |
| C29 | proved | Decoder scores add up along lattice paths | Decoder | loop invariant over the node order: every token is a path | `TheanoLM.C29_tokens`, `TheanoLM.C29_sorted`, `TheanoLM.C29_total`, `TheanoLM.C29_recombined` |
| C30 | proved | Pruning keeps the best token | Decoder | properties of the sorted and truncated list | `TheanoLM.C30_best_updated`, `TheanoLM.C30_intermediate`, `TheanoLM.C30_pruning`, `TheanoLM.C30_limit`, `TheanoLM.C30_best`, `TheanoLM.C30_beam`, `TheanoLM.C30_zero_limit` |
| C31 | proved | Recombination never drops the best token of a context | Decoder | properties of recombination | `TheanoLM.C31_recombination` |
| C32 | proved | Decoding without pruning finds the best path | Decoder | exchange argument: invariant that the best continuation survives | `TheanoLM.C32_best`, `TheanoLM.C32_best_model`, `TheanoLM.C32_nbest`, `TheanoLM.C32_order` |
| C33 | partial | The neural network score of a hypothesis is the model's log probability of its words | Decoder | case analysis on the word and the options; witness | `TheanoLM.C33_partial`, `TheanoLM.C33_offset`, `TheanoLM.C33_computed`, `TheanoLM.C33_score_unique`, `TheanoLM.C33_violated` |
| C34 | partial | The relative pruning option limits the number of tokens | DecodeCommand, Decoder | the option is shown to be ignored for all inputs; effect of the decoder option | `TheanoLM.C34_violated`, `TheanoLM.C34_no_tightening`, `TheanoLM.C34_partial`, `TheanoLM.C34_beam_partial` |
| C35 | partial | A rescored lattice contains the decoded hypotheses | RescoredLattice, Decoder | invariant `RInv` of the tree building; witnesses | `TheanoLM.C35_contains_partial`, `TheanoLM.C35_sound_partial`, `TheanoLM.C35_exact_partial`, `TheanoLM.C35_violated`, `TheanoLM.C35_violated_null` |
| C36 | partial | Rescored links carry the transition sequence of the path in order | RescoredLattice | same invariant | `TheanoLM.C36_partial`, `TheanoLM.C36_violated` |
| C37 | partial | Merging subwords preserves words and probabilities | MergeSubwords | fold invariant; witness | `TheanoLM.C37_succeeds`, `TheanoLM.C37_plain`, `TheanoLM.C37_affix`, `TheanoLM.C37_boundary`, `TheanoLM.C37_count`, `TheanoLM.C37_affix_sum`, `TheanoLM.C37_boundary_sum_partial`, `TheanoLM.C37_affix_unknown`, `TheanoLM.C37_boundary_unknown`, `TheanoLM.C37_boundary_violated` |
| C38 | proved | Perplexity counts exactly the scored words | TextScorer | sums over filtered lists with infinities and nan | `TheanoLM.C38_word_score_unique`, `TheanoLM.C38_perplexity`, `TheanoLM.C38_no_words`, `TheanoLM.C38_score_batch`, `TheanoLM.C38_all_matrices` |
| C39 | partial | Line scoring agrees with batch scoring | TextScorer | comparison of the two computations; witness | `TheanoLM.C39_blank`, `TheanoLM.C39_line_partial`, `TheanoLM.C39_in_batch`, `TheanoLM.C39_violated` |
| C40 | proved | A periodic event happens the requested number of times per epoch | Schedule | modular arithmetic, counting the multiples | `TheanoLM.C40_times`, `TheanoLM.C40_count_prefix`, `TheanoLM.C40_count`, `TheanoLM.C40_last`, `TheanoLM.C40_gap`, `TheanoLM.C40_every`, `TheanoLM.C40_word_classes` |
| C41 | proved | Look-ahead scheduling announces exactly the coming events | Schedule | modular arithmetic | `TheanoLM.C41_lookahead` |
| C42 | partial | Validation happens at every scheduled point | Schedule, Trainer | invariant over updates; witnesses | `TheanoLM.C42_from_partial`, `TheanoLM.C42_partial`, `TheanoLM.C42_violated`, `TheanoLM.C42_stale_samples` |
| C43 | proved | The saved model is the best validated model | Trainer | invariant over all event histories with restarts | `TheanoLM.C43_file`, `TheanoLM.C43_history`, `TheanoLM.C43_saved`, `TheanoLM.C43_since` |
| C44 | partial | The learning rate is halved once per annealing and never increases | Trainer | invariant; witness with a restart | `TheanoLM.C44_partial`, `TheanoLM.C44_initial`, `TheanoLM.C44_saved`, `TheanoLM.C44_restart_violated` |
| C45 | proved | Annealing happens exactly when patience is exceeded | Trainer | invariant over event histories | `TheanoLM.C45_only_if`, `TheanoLM.C45_if` |
| C46 | proved | Training stops when the stopping condition says so | Trainer | characterization of the stoppers over event histories | `TheanoLM.C46_max_epochs`, `TheanoLM.C46_epoch`, `TheanoLM.C46_minibatch`, `TheanoLM.C46_finished` |
| C47 | proved | Parameter updates are bounded by the gradient norm limit | Optimizer | norm algebra over an ordered field with a square root | `TheanoLM.C47`, `TheanoLM.C47_update` |
| C48 | partial | Optimizers follow their update equations | Optimizer | unfolding one update and comparing it to the equations; witness | `TheanoLM.C48_sgd`, `TheanoLM.C48_nesterov`, `TheanoLM.C48_nesterov_lookahead`, `TheanoLM.C48_adagrad`, `TheanoLM.C48_adadelta`, `TheanoLM.C48_adam`, `TheanoLM.C48_rmsprop_sgd`, `TheanoLM.C48_rmsprop_nesterov_partial`, `TheanoLM.C48_rmsprop_nesterov_violated` |
| C49 | partial | Training file weights scale the updates | Optimizer | independence of the update from the weights | `TheanoLM.C49_violated`, `TheanoLM.C49_index` |
| C50 | partial | A saved architecture is restored identically | Architecture | round trip of the HDF5 tree, string order of numbers; witness | `TheanoLM.C50_partial`, `TheanoLM.C50_order`, `TheanoLM.C50_again`, `TheanoLM.C50_violated` |
| C51 | partial | An incompatible architecture is detected | Architecture | exact characterization of the check; witness | `TheanoLM.C51_partial`, `TheanoLM.C51_self`, `TheanoLM.C51_detects`, `TheanoLM.C51_missing`, `TheanoLM.C51_violated` |
| C52 | partial | Architecture descriptions are parsed completely or rejected | Architecture | grammar of descriptions; witness | `TheanoLM.C52_partial`, `TheanoLM.C52_accepts_partial`, `TheanoLM.C52_violated` |
| C53 | proved | Recurrent states of parallel sequences do not mix | RecurrentState | list slices | `TheanoLM.C53_combine`, `TheanoLM.C53_slice`, `TheanoLM.C53_initial`, `TheanoLM.C53_rejects` |
| C54 | partial | Splitting a layer to devices does not change the network | Devices, Network | index ranges of the parts; distributivity of the concatenation | `TheanoLM.C54_ranges`, `TheanoLM.C54_errors`, `TheanoLM.C54_preact`, `TheanoLM.C54_conv_partial`, `TheanoLM.C54_violated_conv`, `TheanoLM.C54_violated_softmax`, `TheanoLM.C54_softmax_partial`, `TheanoLM.C54_duplicate` |
| C55 | proved | Hierarchical softmax factorizes every output size | OutputLayer | integer square root arithmetic | `TheanoLM.C55`, `TheanoLM.C55_least` |
| C56 | partial | Output probabilities sum to one | OutputLayer, Network | sums over the classes; witness | `TheanoLM.C56_partial`, `TheanoLM.C56_hsoftmax_partial`, `TheanoLM.C56_target`, `TheanoLM.C56_softmax_targets`, `TheanoLM.C56_violated` |
| C57 | proved | Predictions never depend on the predicted or later words | Network | non-interference by induction over layers and time | `TheanoLM.C57`, `TheanoLM.C57_complete` |
| C58 | partial | Bidirectional layers do not see the target word | Network | non-interference; witness over the reals | `TheanoLM.C58_partial`, `TheanoLM.C58_violated` |
| C59 | partial | Scores of a sequence do not depend on the rest of the batch | Network | non-interference in the batch; witness over the reals | `TheanoLM.C59_partial`, `TheanoLM.C59_batch`, `TheanoLM.C59_violated` |
| C60 | proved | Step-by-step evaluation agrees with mini-batch evaluation | Network, RecurrentState | simulation between the two modes by induction over time | `TheanoLM.C60`, `TheanoLM.C60_converse`, `TheanoLM.C60_rejects` |
| C61 | proved | Generated text has the requested form | TextSampler | induction on time steps with arbitrary random outcomes | `TheanoLM.C61`, `TheanoLM.C61_written`, `TheanoLM.C61_succeeds` |
| C62 | proved | Interpolation weights behave as probabilities | Interpolation | real analysis: monotonicity and convexity | `TheanoLM.C62`, `TheanoLM.C62_value`, `TheanoLM.C62_weights`, `TheanoLM.C62_loglinear_zero`, `TheanoLM.C62_loglinear`, `TheanoLM.C62_loglinear_nan` |
| C63 | proved | Noise distributions are distributions over the classes | Interpolation | telescoping sums | `TheanoLM.C63_uniform`, `TheanoLM.C63_loguniform`, `TheanoLM.C63_multinomial` |
| C64 | proved | Parameters are saved and restored exactly | Parameters | finite maps | `TheanoLM.C64`, `TheanoLM.C64_add`, `TheanoLM.C64_missing`, `TheanoLM.C64_saves`, `TheanoLM.C64_scalar_again` |
| C65 | partial | Custom validation statistics are used | Trainer | independence from the function; witness | `TheanoLM.C65_partial`, `TheanoLM.C65_samples`, `TheanoLM.C65_median`, `TheanoLM.C65_violated` |
| C66 | proved | Lattice nodes that are ready are listed in time order | Lattice | worklist invariant | `TheanoLM.C66_time_order`, `TheanoLM.C66_sorted_times` |
| C67 | proved | Recomputed membership probabilities are relative frequencies | Vocabulary | sums over classes | `TheanoLM.C67_relative` |
| C68 | proved | Class memberships of word IDs | Vocabulary | list lookups | `TheanoLM.C68_memberships` |
| C69 | proved | Class probabilities are the masses of the classes | Vocabulary | sums over classes | `TheanoLM.C69_class_probs` |
| C70 | partial | Lattices survive an SLF write/read round trip | SlfWrite, SlfLattice | the lines of the output parsed back one by one through the tokenizer grammar; witnesses | `TheanoLM.C70_partial`, `TheanoLM.C70_again`, `TheanoLM.C70_violated_word`, `TheanoLM.C70_violated_hash`, `TheanoLM.C70_violated_utterance`, `TheanoLM.C70_violated_final` |
| C71 | proved | Kaldi word and ID mappings are inverses | LatticeBatch | dictionary invariants | `TheanoLM.C71_kaldi_vocabulary` |
| C72 | proved | A Kaldi lattice archive is split into its lattices | LatticeBatch | induction on the lines of the archive | `TheanoLM.C72_archive` |
| C73 | partial | A rescored lattice keeps the scores of the hypotheses | RescoredLattice | sums along the invariant of C35 | `TheanoLM.C73_partial`, `TheanoLM.C73_no_null_scores`, `TheanoLM.C73_violated` |
| C74 | proved | Every decoding result can be written as a lattice | RescoredLattice, Decoder | absence of errors from the invariant of C35 | `TheanoLM.C74_succeeds` |
| C75 | partial | Excluding unknown words also excludes out-of-shortlist words | TextScorer | case analysis; witness | `TheanoLM.C75_excluded_partial`, `TheanoLM.C75_violated` |
| C76 | partial | The score report accounts for every word | ScoreText | fold invariant over the report; witness | `TheanoLM.C76_statistics`, `TheanoLM.C76_succeeds_partial`, `TheanoLM.C76_violated` |
| C77 | proved | Training does not fail by itself | Trainer | absence of errors from the invariant of the training loop | `TheanoLM.C77_no_failure`, `TheanoLM.C77_restart` |
| C78 | proved | Training costs are the documented functions of the counted targets | Cost, OutputLayer, Network | the tensors per position compared to the documented sums | `TheanoLM.C78_cost`, `TheanoLM.C78_padding`, `TheanoLM.C78_cross_entropy`, `TheanoLM.C78_zero_probability`, `TheanoLM.C78_nce`, `TheanoLM.C78_blackout`, `TheanoLM.C78_shares`, `TheanoLM.C78_blackout_unnormalized`, `TheanoLM.C78_noise`, `TheanoLM.C78_sharing_error`, `TheanoLM.C78_sampling`, `TheanoLM.C78_sampling_devices`, `TheanoLM.C78_unigram`, `TheanoLM.C78_noise_distribution` |
| C79 | proved | Every layer computes its documented function | Network | per-unit equations by unfolding one time step | `TheanoLM.C79_input`, `TheanoLM.C79_projection`, `TheanoLM.C79_fully_connected`, `TheanoLM.C79_highway`, `TheanoLM.C79_dropout`, `TheanoLM.C79_addition`, `TheanoLM.C79_recurrent`, `TheanoLM.C79_bidirectional`, `TheanoLM.C79_softmax`, `TheanoLM.C79_hsoftmax`, `TheanoLM.C79_glu` |
| C80 | proved | A network is what its description says, with parameters of the right shapes | NetworkCreate, Network | invariant over the created layers; progress of the evaluation | `TheanoLM.C80_layers`, `TheanoLM.C80_parameters`, `TheanoLM.C80_evaluates`, `TheanoLM.C80_evaluates_iff`, `TheanoLM.C80_trained` |
| C81 | partial | A saved network is loaded with the same structure and parameters | NetworkState, Architecture, Parameters | round trip per layer type with distinct paths; witnesses | `TheanoLM.C81_saves`, `TheanoLM.C81_partial`, `TheanoLM.C81_violated_device`, `TheanoLM.C81_violated_name` |
| C82 | proved | The device used by default is an available device | NetworkState | case analysis | `TheanoLM.C82`, `TheanoLM.C82_no_gpu` |
| C83 | proved | SLF lines are split into fields by white space, with quotes, escapes and comments | SlfWrite | equivalence of the state machine with an inductive grammar | `TheanoLM.C83`, `TheanoLM.C83_quoted` |
| C84 | partial | The classes that wctool writes can be read as a vocabulary | WordClassFile, WordClasses, Vocabulary | the loop with saving refines the loop without; the saved lines satisfy the grammar of C18; invariant that only <unk> is in its class | `TheanoLM.C84_classes`, `TheanoLM.C84_srilm_partial`, `TheanoLM.C84_violated_pipe`, `TheanoLM.C84_violated_unk` |
| C85 | partial | The decode command writes the n best hypotheses of each lattice | DecodeOutput, DecodeCommand, Decoder | the decoder invariants of C29-C33 for each token, induction over tokens and lattices | `TheanoLM.C85_nbest`, `TheanoLM.C85_best`, `TheanoLM.C85_job`, `TheanoLM.C85_numbers`, `TheanoLM.C85_violated_jobs`, `TheanoLM.C85_violated_count` |
| C86 | partial | A lattice written by the decode command in SLF format can be read back and stands for the result of decoding | DecodeOutput, RescoredLattice, SlfWrite, SlfLattice | invariant of the rescored lattice (every node but the final has outgoing links), then the round trip of C70 and transfer of the paths of C35 and C73 | `TheanoLM.C86_partial`, `TheanoLM.C86_parameters`, `TheanoLM.C86_violated_two`, `TheanoLM.C86_violated_scale`, `TheanoLM.C86_violated_penalty` |
| C87 | partial | An archive written by the decode command in Kaldi format can be read back, one lattice for each lattice of the job | DecodeOutput, RescoredLattice, KaldiLattice, LatticeBatch | invariant of the rescored lattice, the writer gives the same text as for the canonical lattice of its links (C27), induction over the lattices of the job | `TheanoLM.C87_partial` |
| C88 | partial | The score command reports every sentence of the text and the statistics of all | ScoreOutput, ScoreText, TextScorer, MergeSubwords, BatchIterator | the mini-batches contain the lines in order (C03), each scored as if alone; induction over sentences and words of the written lines | `TheanoLM.C88_report_partial`, `TheanoLM.C88_stops`, `TheanoLM.C88_violated` |
| C89 | partial | The score command writes one score for each line with words | ScoreOutput, TextScorer | induction over the lines with C39 for each; uniqueness of the score relates it to the word scores | `TheanoLM.C89_scores_partial`, `TheanoLM.C89_unique`, `TheanoLM.C89_agrees`, `TheanoLM.C89_violated` |
| C90 | proved | The train command uses and stores the right vocabulary | TrainCommand, Statistics, Vocabulary | composition of the word counts (C19), the constructors (C16, C18, C67) and the round trip through the state (C15), with a lemma that adding words outside the shortlist keeps the vocabulary invariant | `TheanoLM.C90_text`, `TheanoLM.C90_file`, `TheanoLM.C90_accepts`, `TheanoLM.C90_membership`, `TheanoLM.C90_legacy`, `TheanoLM.C90_stored`, `TheanoLM.C90_resume`, `TheanoLM.C90_missing` |
| C91 | proved | The perplexity that the train command prints is that of the saved model | TrainCommand, Trainer | invariant of the training loop: the state at the center of the samples is one whose perplexity has been computed; composition with C43 | `TheanoLM.C91_result`, `TheanoLM.C91_not_trained`, `TheanoLM.C91_without_validation` |
| C92 | partial | Invalid arguments of the train command have no effect | TrainCommand | case analysis, induction over the weights; the violation by evaluation of two runs | `TheanoLM.C92_arguments`, `TheanoLM.C92_rejected_partial`, `TheanoLM.C92_violated` |
| C93 | partial | fix-class-probabilities gives the relative frequencies of the words of each class | Recipes, Vocabulary | invariant of the dictionary of classes over the lines, the fold over the words of a class as a map, sums over a class; composition with C18 for the vocabulary | `TheanoLM.C93_probabilities`, `TheanoLM.C93_sum`, `TheanoLM.C93_vocabulary_partial`, `TheanoLM.C93_rejected`, `TheanoLM.C93_name`, `TheanoLM.C93_violated` |
| C94 | partial | N-gram counts are the numbers of occurrences and survive writing and reading | Recipes | induction over the words with the history as the last words of the text; dictionaries as the last value given to each key; a bijection between beginnings and ends of occurrences | `TheanoLM.C94_text`, `TheanoLM.C94_read`, `TheanoLM.C94_round_trip`, `TheanoLM.C94_queries`, `TheanoLM.C94_prune_partial`, `TheanoLM.C94_violated`, `TheanoLM.ngramCount_begin` |
| C95 | proved | Creating and finding word classes | Recipes | the first free number exists because names are injective; induction over the attempts and the classes | `TheanoLM.C95_create`, `TheanoLM.C95_find`, `TheanoLM.C95_agree` |
| C96 | proved | A network is a probability distribution over words and sentences | LanguageModel, TextScorer, Network, NetworkCreate, Vocabulary | progress of the evaluation for any parameters (C80_trained), normalization of the output (C56) and of the class memberships (C13), induction over the length of sentences | `TheanoLM.C96_independent`, `TheanoLM.C96_sum`, `TheanoLM.C96_shortlist`, `TheanoLM.C96_excluded`, `TheanoLM.C96_finite`, `TheanoLM.C96_sentences`, `TheanoLM.C96_sentences_shortlist` |
| C97 | partial | Lattice decoding and text scoring give the same language model scores | NetworkDecoder, Decoder, TextScorer, Network, RecurrentState | the step function is computed row by row for combined states (induction over the layers); steps against whole sentences by C60; induction over the path with C33, where the membership probabilities of all words but <s> and </s> cancel | `TheanoLM.C97_tokens`, `TheanoLM.C97_initial`, `TheanoLM.C97_step`, `TheanoLM.C97_class`, `TheanoLM.C97_word`, `TheanoLM.C97_partial`, `TheanoLM.C97_offset_partial`, `TheanoLM.C97_violated` |
| C98 | proved | Text is generated from the distribution that text scoring uses | TextSampler, LanguageModel, TextScorer, Network, Vocabulary | C61 (steps against whole sequences, other sequences do not matter) with the distribution of C96; success by progress of the evaluation (C80_trained) | `TheanoLM.C98`, `TheanoLM.C98_succeeds` |
| C99 | partial | Decoding a lattice finds the best hypotheses under the network | Decoder, NetworkDecoder, LanguageModel | composition of C32 (every complete path is represented; recombination keeps the best of equal word sequences) and C97 (the score of a path is the text score of its words, up to a number that is the same for all paths) | `TheanoLM.C99_partial`, `TheanoLM.C99_order_partial`, `TheanoLM.C99_best_partial`, `TheanoLM.C99_unique` |
| C100 | partial | Rescored lattices keep the hypotheses and scores also with recombination | RescoredLattice, Decoder | the tree invariant of the paths of final tokens (C73) survives the added links: acoustic scores and transitions are those of the original links when parallel links are equal; a witness shows that they are not in general | `TheanoLM.C100_contains_partial`, `TheanoLM.C100_contains`, `TheanoLM.C100_sound_partial`, `TheanoLM.C100_violated` |
| C101 | partial | Recombination does not lose word sequences | RescoredLattice, Decoder | a trace of decoding tells which tokens were kept and recombined in each node; induction over the nodes from the last one shows that every path from a kept token to the end of the sentence is in the lattice when the recombinations of the later nodes have been added | `TheanoLM.C101_complete_partial`, `TheanoLM.C101_exact_partial`, `TheanoLM.C101_violated` |
| C102 | proved | Recombination does not change the best hypothesis of networks with limited memory | Decoder, NetworkDecoder | the same word adds the same score to tokens that recombination does not tell apart, so a dropped token never overtakes the kept one; induction over the nodes as in C32. Networks without recurrent layers have only one state | `TheanoLM.C102_best`, `TheanoLM.C102_network`, `TheanoLM.C102_condition` |
| C103 | partial | Language model scores of rescored lattices | RescoredLattice, Decoder, NetworkDecoder | every node of the rescored lattice has the words of a kept token; the score of a link is the original score plus the network score of the words through the link minus that of the words of its end node, so the scores of a path telescope, because the next word adds the same to histories that recombination does not tell apart | `TheanoLM.C103_added_partial`, `TheanoLM.C103_scores_partial`, `TheanoLM.C103_exact_partial`, `TheanoLM.C103_network_partial`, `TheanoLM.C103_violated`, `TheanoLM.C103_condition` |
| C104 | partial | Comparing word classes | WordClassEq, Vocabulary | induction over the words of the first class; equally many distinct words, all of which belong to the other class, are all the words of the other class | `TheanoLM.C104_same`, `TheanoLM.C104_answer_partial`, `TheanoLM.C104_failure_partial`, `TheanoLM.C104_reflexive`, `TheanoLM.C104_other`, `TheanoLM.C104_violated`, `TheanoLM.C104_not_symmetric` |
| C105 | proved | Convolution gives outputs of the documented sizes and elements | Convolution, Network | sums over pairs of an input element and a filter element are exchanged; sizes by integer division | `TheanoLM.C105_conv2d`, `TheanoLM.C105_sizes`, `TheanoLM.C105_unknown`, `TheanoLM.C105_small`, `TheanoLM.C105_conv1d`, `TheanoLM.C105_layer` |
| C106 | partial | Restoring a model file gives exactly the training state that was saved last | TrainerState, NetworkState, Parameters | names of the parameters of the network and the optimizer are different and not inside each other; an invariant of the file over the sequence of saves | `TheanoLM.C106`, `TheanoLM.C106_saves_partial`, `TheanoLM.C106_violated_adam`, `TheanoLM.C106_missing`, `TheanoLM.C106_source`, `TheanoLM.C106_violated_device` |
| C107 | partial | Training that is interrupted and continued from the model file goes on as without the interruption | Trainer, BatchIterator | a simulation relation between the two processes, through the rest of the validation samples, which the new process ignores | `TheanoLM.C107_partial`, `TheanoLM.C107_shuffling_partial`, `TheanoLM.C107_passes_partial`, `TheanoLM.C107_violated_passes`, `TheanoLM.C107_violated_stopper` |
| C108 | partial | The classes that wctool writes are a local optimum of the class bigram model of the training text | Statistics, WordClasses, WordClassFile | the maximum of the text probability by the inequality of Gibbs over the class pairs and over the words of each class, with C19 (statistics), C21 and C22 (likelihood) and C84 (output) | `TheanoLM.C108_likelihood`, `TheanoLM.C108_partial`, `TheanoLM.C108_created`, `TheanoLM.C108_violated` |
| C109 | proved | Scores and perplexities are bounded whatever the text is | Network, LanguageModel, TextScorer | a bound of the output of each kind of layer given a bound of its inputs, by an invariant of the recurrence for recurrent layers, and induction over the layers; the softmax of bounded numbers; C38 for the perplexity. The counterexample is a recurrence that grows at least by 1/4 in every step | `TheanoLM.C109_outputs`, `TheanoLM.C109_time`, `TheanoLM.C109_recurrent`, `TheanoLM.C109_probs`, `TheanoLM.C109_score`, `TheanoLM.C109_score_time`, `TheanoLM.C109_perplexity`, `TheanoLM.C109_necessary` |
| C110 | proved | Perplexity does not depend on the size of the mini-batches | FilePerplexity, TextScorer, BatchIterator, PrepareBatch, LanguageModel | composition of C03 (iteration), C07 (padding and mask), C38 (perplexity) and C96 (independence of the network); the included words of mini-batches are a permutation of those of the sequences | `TheanoLM.C110_perplexity`, `TheanoLM.C110_order`, `TheanoLM.C110_probability`, `TheanoLM.C110_network` |
| C111 | proved | The score command reports the validation perplexity | FilePerplexity, ScoreText, ScoreOutput, MergeSubwords, TextScorer, LanguageModel | composition of C110 (validation perplexity from sequences scored alone) and C88 (report from sequences scored alone); the predicted words of the report are exactly the included words | `TheanoLM.C111_report`, `TheanoLM.C111_network`, `TheanoLM.C111_zero_probability` |
| C112 | proved | Training with the cross-entropy cost minimises the perplexity that validation measures | TrainingCost, Cost, TextScorer, LanguageModel, Network | the log probabilities of both computations are the same evaluation of the network; composition of C78 (cost), C38 (perplexity) and C96 (network as a distribution) | `TheanoLM.C112_perplexity`, `TheanoLM.C112_order`, `TheanoLM.C112_unknown` |
| C113 | partial | Dropout does not change the expected outputs | Dropout, Layers, Network, NetworkCreate | the inputs of the layer do not depend on its random numbers (induction over the layers); the output is a step function of the random number, which is integrated | `TheanoLM.C113_mean`, `TheanoLM.C113_rate`, `TheanoLM.C113_passRate`, `TheanoLM.C113_violated` |
| C114 | partial | Updates decrease the cost when the learning rate is small | Optimizer | the update equations of C48 written as minus the learning rate times a positive number times the partial derivative; derivative of the cost along the update | `TheanoLM.C114_direction`, `TheanoLM.C114_decrease`, `TheanoLM.C114_violated` |
| C115 | proved | The utterance scores add up to the reported perplexity | ScoreText, ScoreOutput, MergeSubwords, TextScorer, LanguageModel | success of score_line implies a finite score and words in the shortlist; every word that contributes to the score is predicted in the report (C88) and the other way round, because words with zero class membership probability have zero probability | `TheanoLM.C115_total`, `TheanoLM.C115_network` |
| C116 | partial | Training and scoring agree on the perplexity of the saved model | ScoreModel, TrainCommand, Trainer, TrainerState, NetworkState, TrainingCost, FilePerplexity, ScoreOutput | composition of C90 (the vocabulary in the file), C91 (the printed perplexity is that of the saved parameters), C106 (the file contains the saved parameters), C81 (loading), C110 and C111 (the report); for the violation: removing `<unk>` from the softmax increases the probabilities of all the other classes, and the included words are the same | `TheanoLM.C116_partial`, `TheanoLM.C116_violated_exclude`, `TheanoLM.C116_violated` |
| C117 | partial | What noise-contrastive estimation estimates | Cost, ClassDistribution, NoiseSampling | the expected cost is a sum over classes of a binary cross entropy, which has a unique minimum where the probability of not being noise is p/(p+m) | `TheanoLM.C117_optimum`, `TheanoLM.C117_partial`, `TheanoLM.C117_uniform`, `TheanoLM.C117_error`, `TheanoLM.C117_violated`, `TheanoLM.C117_violated_replacement` |
| C118 | partial | Momentum is Nesterov's momentum | Optimizer | from C48: the position is the parameter minus momentum times velocity; for zero momentum, induction over the updates; a concrete run for the violation | `TheanoLM.C118_nesterov`, `TheanoLM.C118_zero_momentum`, `TheanoLM.C118_violated_rmsprop` |
| C119 | proved | Adaptive methods bound the size of an update | Optimizer | from the equations of C48; Cauchy-Schwarz for the means of Adam, induction for the velocity | `TheanoLM.C119_adagrad`, `TheanoLM.C119_rmsprop`, `TheanoLM.C119_rmsprop_nesterov`, `TheanoLM.C119_adam` |
| C120 | proved | The training cost of a mini-batch is the mean of the costs of its sequences | Network, Cost, TrainingCost | the scores of a sequence do not depend on the rest of the mini-batch (C96_independent); the sum over the mask is exchanged to a sum over sequences | `TheanoLM.C120_mean`, `TheanoLM.C120_order` |
| C121 | proved | Layers that the output is not computed from have no effect | Network, NetworkCreate, LanguageModel | strong induction on the number of the layer: equal inputs in every position give an equal layer output | `TheanoLM.C121_network`, `TheanoLM.C121_scores` |
| C122 | proved | No network gives a text a perplexity smaller than the entropy of its sentences | TextScorer, FilePerplexity, LanguageModel, BatchIterator | the sentences have probabilities that sum to at most one (C96), the perplexity is the exponential of the mean of their logarithms (C110), and Gibbs' inequality | `TheanoLM.C122_entropy`, `TheanoLM.C122_shortlist`, `TheanoLM.C122_distinct`, `TheanoLM.C122_finite`, `TheanoLM.C122_finite_shortlist` |
| C123 | proved | Decoding depends only on what the lattice reads | Lattice, Decoder | every complete path is represented in the result (C32), the scores of a token are those of its path, and the lists without duplicate histories are permutations of each other | `TheanoLM.C123_equivalent`, `TheanoLM.C123_best`, `TheanoLM.C123_renumbered` |
| C124 | proved | A beam that is wide enough does not lose the best hypothesis | Lattice, Decoder | invariant of the loop over nodes: every reached node has a token, the best log probability of a node is the score of a path, the paths within the beam are represented; the sorted nodes are in the order of time | `TheanoLM.C124_succeeds`, `TheanoLM.C124_within`, `TheanoLM.C124_optimal`, `TheanoLM.C124_wide`, `TheanoLM.C124_not_monotone`, `TheanoLM.C66_sorted_times` |
| C125 | proved | Decoding with linear interpolation finds the best path when the lattice scores depend only on the words | Decoder, Interpolation | invariant of the loop over nodes: every path to a visited node is represented by a token with the same words, the same network score and a total score that is at least as good; paths with the same words have the same language model scores, so a better token stays better | `TheanoLM.C125_best`, `TheanoLM.C125_model`, `TheanoLM.C125_interpolation`, `TheanoLM.C125_condition` |
| C126 | proved | The number of normal classes excludes exactly the special classes at the end | Vocabulary | induction on the class list from the end, using the invariant of the construction that the classes are the word IDs grouped by class | `TheanoLM.C126_normal_classes`, `TheanoLM.C126_normal_words` |
| C127 | proved | A limit on the number of hypotheses that is large enough does not lose the best hypothesis | Lattice, Decoder | recombined tokens have different histories, so there are at most as many as word sequences and pruning keeps all; invariant of the loops over nodes and links that every path is represented by a token that is at least as good | `TheanoLM.C127_best`, `TheanoLM.C127_same`, `TheanoLM.C127_condition` |
| C128 | proved | Text is generated with the probability that text scoring gives to it | TextSampler, Network, ScoreModel | the event that the sequences begin with the words is a box in the space of the random numbers (a condition on each random number separately), so that its measure is a product; every factor is the probability of one draw, which is the probability of a word given the preceding words by the equality of the step-by-step and whole-sequence networks | `TheanoLM.C128`, `TheanoLM.C128_sentence`, `TheanoLM.C128_scored`, `TheanoLM.C128_draws` |
| C129 | proved | A network that has not been trained predicts the unigram distribution of the classes | NetworkCreate, Network, Vocabulary, ScoreModel | the preactivation of a class is the logarithm of its smoothed probability plus the product of weights and inputs; normalizing exponentials of numbers that differ by at most d changes the logarithms by at most 2d | `TheanoLM.C129`, `TheanoLM.C129_recurrent` |
| C130 | proved | No probability is lost in texts that do not end | ScoreModel, Network, TextSampler | the probability of the end of sentence has a positive lower bound in every context (C109), so the probability of beginnings of n words without the end is at most (1 - d)^n by induction; the sentences with less than n words have the rest; the sampler by a union bound over the beginnings with C128 | `TheanoLM.C130`, `TheanoLM.C130_sampler` |
| C131 | partial | The best path of a rescored lattice is the best hypothesis | RescoredLattice, Decoder | the scores of C73 put in the total score of C29; returned tokens have different histories, so the path with the words of the best token has its score | `TheanoLM.C131_partial`, `TheanoLM.C131_violated` |
| C132 | partial | What BlackOut estimates | Cost | the expected cost is symmetric in the positions of the target and the noise classes, so it is a sum of binary cross-entropies for each tuple of classes; each has its only minimum where the shares are proportional to p / q, and these are attained together | `TheanoLM.C132_partial`, `TheanoLM.C132_violated` |
| C133 | proved | SLF lattices mean the same in any base of logarithms | SlfLattice | the two readers run in lockstep; the headers stay equal apart from the base and the unconverted penalty, and every score is the natural logarithm of the probability that it stands for | `TheanoLM.C133` |
| C134 | proved | New networks have orthogonal weights | NetworkCreate | the columns of a part of the concatenation are the columns of one orthogonal matrix; a square matrix with orthonormal columns has orthonormal rows, so that it preserves norms | `TheanoLM.C134` |
| C135 | proved | Decoding succeeds and finds the best path with any combination of pruning options | Decoder | an invariant over the processed nodes, with a set of paths as a parameter: every node that has been reached has a token, and the paths in the set are represented; pruning is shown to keep the paths within the beam, since the score that the threshold is computed from is the score of a path that does not end earlier | `TheanoLM.C135_succeeds_iff`, `TheanoLM.C135_fails`, `TheanoLM.C135_within`, `TheanoLM.C135_optimal`, `TheanoLM.C135_condition` |
| C136 | proved | A vocabulary in a model file is read as it is or rejected | Vocabulary | induction over the probabilities gives the list of classes (or the index error) for arbitrary lists; then the checks one by one | `TheanoLM.C136_accepted_iff`, `TheanoLM.C136_contents`, `TheanoLM.C136_normalized`, `TheanoLM.C136_missing`, `TheanoLM.C136_no_probability` |
| C137 | proved | The sampling-based costs never mix the positions of a mini-batch | SamplingTensors, Cost | tensors are shapes with functions on indices; every operation is evaluated symbolically at an index in range | `TheanoLM.C137_nce`, `TheanoLM.C137_blackout`, `TheanoLM.C137_local`, `TheanoLM.C137_target_scores`, `TheanoLM.C137_noise_scores`, `TheanoLM.C137_index_error` |
| C138 | proved | Networks with disconnected layers cannot be trained, unless the cost is regularized | Gradient, NetworkCreate, NetworkState | the layers that are met form the least set that contains the output layer and is closed under taking inputs, as inputs are created earlier; which layers have parameters is proved by cases on the constructors of the layers | `TheanoLM.C138_trainable_iff`, `TheanoLM.C138_message`, `TheanoLM.C138_silent` |
| C139 | proved | Decoding and text generation are possible exactly without bidirectional and convolution layers | Network, NetworkDecoder, TextSampler | induction over the layers for the error; success from C97_step | `TheanoLM.C139_decode_iff`, `TheanoLM.C139_generate` |
| C140 | proved | The architectures that come with the program work with every vocabulary | PackageArchitecture, Architecture, NetworkCreate, Gradient | the description depends on parseInt only through the numerals in the file; then the creation of each layer for any environment, and C138, C139 | `TheanoLM.C140_lstm300`, `TheanoLM.C140_lstm1500`, `TheanoLM.C140_model`, `TheanoLM.C140_decode` |
| C141 | proved | The reported number of parameters is right | NumParams, NetworkCreate, NetworkState, PackageArchitecture | the sizes of the parts on the devices add up to the size of the whole, then by cases on the layer type; the file by induction on the parameters, whose names differ | `TheanoLM.C141_layers`, `TheanoLM.C141_trained`, `TheanoLM.C141_file`, `TheanoLM.C141_lstm300`, `TheanoLM.C141_lstm1500` |
| C142 | partial | Vectors are initialized to the values that were given | InitialValue, NetworkCreate | induction on the list; element i * size + j of the result is element j of part i | `TheanoLM.C142_value`, `TheanoLM.C142_array`, `TheanoLM.C142_list_partial`, `TheanoLM.C142_bias`, `TheanoLM.C142_violated_arrays`, `TheanoLM.C142_violated_size` |
| C143 | partial | Compressed text files are read as the text in them | TextFile, Parsing, Statistics | the lines at the sentence pointers (C02) are divided at the newline bytes, which decoding preserves; the first line of compressed data has the two bytes that cannot be decoded | `TheanoLM.C143_opened`, `TheanoLM.C143_word_counts`, `TheanoLM.C143_training_partial`, `TheanoLM.C143_violated_training` |
| C144 | partial | Test values have the documented range | TestValue | the contract of the random generator of NumPy, for each element | `TheanoLM.C144_int`, `TheanoLM.C144_float_partial`, `TheanoLM.C144_other`, `TheanoLM.C144_violated_size`, `TheanoLM.C144_violated_bool` |
| C145 | partial | Dividing decoding into jobs does not change what is written | LatticeBatch, DecodeOutput | induction on the files and on the lattices: the loop over a concatenation, and independence of the number of the lattice | `TheanoLM.C145_partial`, `TheanoLM.C145_converse_partial`, `TheanoLM.C145_violated` |
| C146 | proved | The perplexity of several files is between the perplexities of the files | FilePerplexity, TextScorer, BatchIterator | the scores of the sequences of the files together are those of the files one after another (from C110), and the mean of the concatenation | `TheanoLM.C146_mean`, `TheanoLM.C146_between`, `TheanoLM.C146_network`, `TheanoLM.C146_nothing`, `TheanoLM.C146_zero` |
| C147 | proved | Dividing a text into parts does not change the scores of its utterances | ScoreOutput, TextScorer | induction on the lines and on the parts | `TheanoLM.C147_two`, `TheanoLM.C147_fails`, `TheanoLM.C147_parts`, `TheanoLM.C147_necessary` |
| C148 | partial | The order of the training text does not change the word counts or the vocabulary | Statistics, Vocabulary | C19 gives the counts as numbers of occurrences; storing counts to different indices commutes; a sorted list without ties is determined by its elements | `TheanoLM.C148_counts`, `TheanoLM.C148_probs`, `TheanoLM.C148_sum`, `TheanoLM.C148_markers`, `TheanoLM.C148_words`, `TheanoLM.C148_vocabulary_partial`, `TheanoLM.C148_violated` |
| C149 | partial | The order of the training text does not change the word classes | Statistics, Vocabulary, WordClassFile, WordClasses | the statistics are sums over the lines (C19); C148 for the vocabulary; C84 for the output of the witness | `TheanoLM.C149_statistics`, `TheanoLM.C149_file`, `TheanoLM.C149_created_partial`, `TheanoLM.C149_violated` |
| C150 | proved | The order of the lines does not change the perplexity | TextScorer, BatchIterator | the sequences of a text are those of its lines (C03); scores of permuted sequences are permuted (C110), and the perplexity depends only on their sum and number | `TheanoLM.C150_lines`, `TheanoLM.C150_network`, `TheanoLM.C150_necessary` |

## Partial properties: what is missing

* **C04** the code loses the last word (always </s>) of an utterance whose length modulo the maximum sequence length is 1; concrete witness proved
* **C09** the rest of a line in the buffer is lost, and the end-of-data mark is not cleared; both violations have witnesses
* **C13** sums to one always; non-negativity can be violated by a class file with negative probabilities (witness)
* **C14** the code does not exclude <s> when probabilities are computed from corpus counts, and gives all zeros when nothing was counted (witnesses)
* **C18** an unparsable number raises ValueError and an all-zero class ZeroDivisionError instead of InputError (witnesses)
* **C21** the evaluation gives masked (NumPy) or nan (Theano) instead of a number for some moves although no class count is zero; whenever it gives a number the number is right
* **C24** if the initial node has a link from a node that is not reachable, nodes may be listed before their predecessors (witness); everything is proved when the initial node has no incoming links
* **C25** the initial node changes if it is not the least node that has outgoing links (witness); everything else is proved for all lattices
* **C26** a lattice without a final-state line is accepted, with a final node that cannot be reached (witness)
* **C27** words of nodes are not moved to links that are not reachable from the initial node (witness)
* **C33** does not hold for class models when unknown words get a separate score (witness). Otherwise the score of every hypothesis is right up to a number that is the same for all hypotheses (C33_offset), zero if <s> and </s> have the same membership probability (C33_partial)
* **C34** the command line option has no effect, for all inputs; the effect of the decoder option that it should set is proved, for the limit on the number of tokens and for the beam
* **C35** does not hold for lattices that are not determinized (witness; the program logs a warning), and soundness not for lattices with null links when tokens are recombined (witness); holds otherwise
* **C36** the transitions of null links are placed after those of the word that follows (witness); holds when null links do not have transitions and nothing is recombined
* **C37** with word boundary tokens, the log probability of a boundary token right after the first word or after another boundary token is lost (witness); the rest is proved for all inputs
* **C39** a line with an out-of-shortlist word raises IndexError (witness); words of zero membership probability are left out of the line score; proved for lines of shortlist words
* **C42** holds when the samples of validation points do not overlap and no samples are left over from an earlier epoch; otherwise scheduled points are skipped, or samples and the saved model are from an earlier epoch (witnesses)
* **C44** proved within one training process; a new process started from the file after annealing continues with the learning rate of the saved model (witness)
* **C48** proved for six of the seven methods; RMSProp with Nesterov momentum never stores the running mean (proved to be violated, with the equations that it follows instead)
* **C49** the claim is false for this code: the weighted learning rate is computed but not used, and it is proved that updates do not depend on the weights
* **C50** with more than ten inputs or list values the order changes, since they are read in the order of their numbers as strings (witness); proved for at most ten, and up to order for any number
* **C51** the check is exactly characterized: it does not notice inputs, layers, options and list values that only the saved architecture has (witness)
* **C52** a layer with a field named inputs is accepted although it has no inputs (witness); accepted exactly when well-formed if no field has the name of one of the collected lists
* **C54** The parts cover every output once and differ by at most one in size, and the concatenated pre-activation equals that without splitting. Violated by the code in two cases: a convolution layer with a named device, and a softmax layer with one named device, read parameters without the device name and raise KeyError. Matrix shapes are not checked in the model.
* **C56** Proved for softmax layers over any ordered field with a positive exponential function (the reals). For hierarchical softmax the sum is one exactly when the product of the level sizes equals the number of classes, and less than one otherwise (witness with five classes). Rounding is not modelled.
* **C58** Proved for networks where inputs of bidirectional layers are computed from each word alone and their outputs are not used by recurrent, convolution or bidirectional layers. Stacked bidirectional layers see the target word (witness over the reals).
* **C59** Proved for networks without bidirectional layers, and for all networks when the mini-batches have the same length. With bidirectional layers masked padding changes the outputs, since the shifted input is not masked (witness over the reals).
* **C65** the given statistics function is stored under a wrong name and never used, the median is always used (witness)
* **C70** Missing: words and utterance IDs with quotes, backslashes or (words) hash signs, spaces or a leading exclamation mark, lattices without an utterance ID, and lattices where another node than the final node has no outgoing links; the code violates the property in those cases, with witnesses. Numbers are assumed to be read back as they were written.
* **C73** scores of null links after the last word are lost (witness); proved for results without recombination
* **C75** holds only when the <unk> probability is not distributed (witness for the other case)
* **C76** division by zero when no word of the text (or, with word level output, of a sentence) is predicted (witness); all other claims proved
* **C81** Missing: more than ten inputs or list values (C50_violated), names with slashes (a path may collide, C81_violated_name), and another default device than the network was saved with (C81_violated_device); in those cases the code violates the property. All layer types; repeated saves to the same file.
* **C84** Proved for the format classes and a seekable output. In the format srilm-classes a class that does not occur in the training data is written with zero probabilities and the file cannot be read (ZeroDivisionError); that is always the case when the vocabulary is created from training data without <unk> (C84_violated_unk). When the output is not seekable, the classes are written several times and cannot be read (C84_violated_pipe). Rounding of the probabilities is not modelled.
* **C85** Proved for words and utterance IDs that are nonempty and without white space, N >= 0, and scores whose text is read back as the same number. Violated: the numbering starts from zero in every job, so that different jobs write the same utterance IDs (C85_violated_jobs); the number of words in the format full counts the sentence boundary markers (C85_violated_count).
* **C86** Proved for one lattice that is determinized, has no cycles of null links and fewer nodes than the recursion limit, with plain words and utterance ID. Violated: the lattices of a job are written one after another into one file that the reader does not accept (C86_violated_two); the scale and penalty from the header of the original lattice are used in decoding but not written (C86_violated_scale); with a base of logarithm the penalty is written in that base although the file is in natural logarithms (C86_violated_penalty). Recombined hypotheses and null links with scores: see C35 and C73.
* **C87** Proved for lattices that are determinized, have no cycles of null links and fewer nodes than the recursion limit, with utterance IDs without white space, words of the Kaldi vocabulary, and transitions without commas and white space. Numbers are assumed to be read back as they were written. Recombined hypotheses and null links with scores: see C35, C36 and C73.
* **C88** Proved when there are predicted words for the perplexities, for networks that score a sequence independently of the rest of the mini-batch (C59), and numbers without newlines. Without predicted words the command fails with ZeroDivisionError after a part of the report (C88_stops says which part; C88_violated).
* **C89** Proved for words that are in the shortlist or unknown and finite scores. A line with an out-of-shortlist word makes the command fail with IndexError, and the lines after it are not scored (C89_violated).
* **C92** The acceptance of arguments and the weights are proved. Violated: the vocabulary is stored in the model file before the arguments are checked, and the file is written also when the command exits; a later run with another vocabulary file silently uses the vocabulary of the rejected run (C92_violated). C92_rejected_partial says what the file contains after a rejected run.
* **C93** The probabilities are proved. Missing: a class without counts and without positive given probabilities is written with zero probabilities, and then the output cannot be read as a vocabulary (ZeroDivisionError); C93_vocabulary_partial says exactly when, C93_violated is a witness. Reading also requires that a word is in one class only. Rounding is not modelled.
* **C94** Pruning is violated: prune_count uses a variable that does not exist, so that it raises NameError whenever there is something to prune (C94_prune_partial, C94_violated). Numbers are assumed to be read back as they were written.
* **C97** C97_tokens holds for all layers; the agreement is stated for networks (with a softmax or hierarchical softmax output) without bidirectional and gated linear unit layers (with those decoding is an error, C139), words with positive membership probability (and a positive share of <unk>), and no <unk> score. Violated by the code when </s> shares its class with another word (C97_violated): the decoder adds the membership probability of the preceding word instead of the predicted one (see C33). C97_partial is for the case that <s> and </s> have the same membership probability; C97_offset_partial gives the difference of the scores in all cases. Real numbers, without rounding.
* **C99** Missing: what is missing from C97 (<unk> scores, words of zero probability). Networks with bidirectional and gated linear unit layers cannot be used in decoding (C139). When <s> and </s> have different membership probabilities, the scores of all hypotheses contain the same additional number (C97_violated); the order of the hypotheses is still right (C99_order_partial, C99_best_partial). Real numbers, without rounding.
* **C100** Violated by the code (C100_violated): the link for a token that was recombined gets the acoustic score and transitions of the last link of the token that was kept. Soundness is proved for lattices without null links where links with the same word into the same node have the same acoustic score and transitions. The hypotheses that decoding returned are always contained; only the scores of null links after the last word are missing (as in C73), C100_contains is for null links without scores.
* **C101** Violated by the code (C101_violated): hypotheses that are recombined after the end of the sentence are not in the rescored lattice, because the end of sentence is not a word link. Proved for all final nodes where no such recombination happened, in lattices without null links; the lattice then contains exactly the word sequences of the original lattice.
* **C103** Missing: lattices with null links, and links with the same word to the same node that have different language model scores, for which the claim does not hold (C103_violated). C103_condition shows that the condition on the network cannot be dropped. The conditions on class membership probabilities are those of C33.
* **C104** Violated by the code: comparing classes that have equally many words, some of them different, can raise a KeyError (C104_violated), and the answer depends on the order of the classes (C104_not_symmetric). Probabilities are rational numbers.
* **C106** Violated by the code: with Adam the state cannot be saved directly to a file that already has a state (C106_violated_adam), so training without validation data fails after the second epoch; a device whose name ends like the name of an optimizer variable makes the saved state ambiguous (C106_violated_device), so such names are excluded. The part of a sentence that has been read but not yet used is not part of the state: restoring keeps it as it is. HDF5 files are modelled as their groups.
* **C107** Proved with validation, for all data iterators whose restored position gives the same mini-batches, and for the shuffling iterator when the model was not saved in the middle of a line and the random generator of the new process gives the same orders. Violated by the code without validation: the model is saved before the epoch number is increased, so the new process makes one epoch too many (C107_violated_passes); then the updates are those of a process with one more epoch (C107_passes_partial). Violated when the stopping criterion counts decreases of the learning rate (C107_violated_stopper), so for other criteria than the maximum number of epochs the learning rate has not been decreased before the model was saved. Missing also: a process whose epoch the stopping criterion ends at the update where the model is saved.
* **C108** C108_likelihood: at every point of the optimization, the log likelihood that is reported is, up to a number that depends only on the text, the logarithm of the greatest probability that a class bigram model with the current classes can give to the training text. C108_partial: the output of wctool, when read as a vocabulary, allows at least the probability of the initial classes and of any single move that the optimizer can evaluate. Violated by the code for moves that cannot be evaluated, which also happens when all the classes occur in the text (C108_violated: text 'a b a c', two classes, both implementations). Missing: vocabulary files that list <s> or </s>; when wctool creates the initial classes, the hypotheses hold (C108_created).
* **C113** C113_mean: for a pass rate between zero and one, the mean of the output of every unit is its input and the variance is input^2 (1-p)/p; C113_rate, C113_passRate: the scale is the inverse of the pass rate, which is positive for every given rate and at most one if the rate is not negative. The statement is false for negative rates (C113_violated), which are not rejected: nothing is dropped and the output is input/p. The random numbers are uniform in [0, 1) (Lebesgue integral); no rounding.
* **C114** C114_direction, C114_decrease: every update of sgd, adagrad, adadelta and rmsprop-sgd, and the first update of every method. For the later updates of nesterov, adam and rmsprop-nesterov the statement is false (C114_violated): momentum can increase the cost however small the learning rate is, which is inherent to the methods. The gradient computed by Theano is taken to be the Frechet derivative of the cost; no rounding.
* **C116** C116_partial: without the option to exclude `<unk>`, the perplexity that the train command prints in the end is the one that the score command (with a shortlist, as in training) reports for the validation text, over real numbers. Missing: a limit on the length of validation sequences, which only training has; bidirectional layers (they violate C59); architectures with lists of more than ten elements and names with slashes (C81, C106). C116_violated_exclude: with the option to exclude `<unk>`, the score command reports a strictly smaller perplexity; C116_violated: a concrete training run where this happens.
* **C117** Over real numbers, for the words that can follow one context, when the activations of the output layer can be chosen freely. C117_optimum: the expected noise-contrastive cost has a single minimum, and its value for every class. C117_partial: if the expected number of occurrences of a class in the sample is the sample size times its probability, and epsilon is zero or the noise is uniform, the normalized outputs at the minimum are exactly the true distribution. C117_uniform: uniform noise with any epsilon. C117_error: with another noise distribution the error is at most the factor 1 + epsilon / b, b the smallest noise probability. Violated: C117_violated (non-uniform noise, any epsilon > 0), C117_violated_replacement (unigram noise is sampled without replacement, epsilon = 0). Missing: optimization in terms of the parameters of a network, and rounding.
* **C118** C118_nesterov: the parameters are the look-ahead points of the published method, also with changing learning rates and when the norm of the update is limited. C118_zero_momentum: Nesterov momentum zero is stochastic gradient descent. C118_violated_rmsprop: RMSProp with momentum zero is not RMSProp without momentum, since the mean of the squared gradients is not updated.
* **C131** C131_partial: for log-linear interpolation without recombined hypotheses, if the weight is one half or the original lattice has no language model scores; the scale of the rescored lattice is then the weight times the scale. Missing: other weights. C131_violated: with the default weight 1.0 the scores are not those of the decoder and the best path is another one.
* **C132** C132_partial: for the real number zero as the numerical stability term, one or more noise classes that are sampled independently (as uniform and log-uniform noise are), and positive probabilities. Missing: a positive numerical stability term, for which the claim does not hold (C132_violated: the result is 2/3 + epsilon/3 instead of 2/3), and noise that is sampled without replacement (unigram noise).
* **C142** The documentation allows a list of arrays, but the function fails with every list that has an array in it (except an array of one element), because it tests the type of the list instead of that of the element. An array of a wrong size is accepted. The layers only use lists of numbers, for which the claim holds (C142_list_partial, C142_bias). Only one-dimensional shapes are modelled.
* **C143** The claim does not hold for training data: for every compressed file that can be read, reading the sentences for training fails (C143_violated_training). It is proved for files that are not compressed, and for counting words. The contract of UTF-8 and gzip that is used is TextCodec.Contract: the byte 10 is only used for newlines, a continuation byte cannot follow an ASCII character, and compressed data begins with the bytes 31 and 139.
* **C144** Holds for integers, and for floating point numbers when the size is a tuple. An integer as the size raises TypeError for floating point numbers, and the test values of a boolean variable are always False. The test values are used only for debugging.
* **C145** Holds in Kaldi format, and in SLF format when every lattice has an utterance ID. SLF lattices without an utterance ID are numbered separately in each job, so that the output of the jobs differs from the output of one job.
* **C148** The counts and the probabilities are proved for all texts. The word IDs of a vocabulary created from the text are proved independent of the order of lines only when no two words are equally frequent; otherwise the code gives different IDs (C148_violated), but the words and their unigram probabilities are the same (C148_words). The markers are counted although the documentation says they are not (C148_markers).
* **C149** Proved for all texts when a vocabulary file is given. Without a vocabulary file proved when no two words are equally frequent (C149_created_partial); otherwise the output of wctool depends on the order of the text (C149_violated). The counts are integers in the model, so that overflow is not considered.

## Where the code disagrees with its documentation or with a property

The first group has `_violated` (or otherwise named) theorems; the rest was noticed while reading.

### Proved

* Splitting loses the last word of an utterance when one word would be left for the last piece (C04).
* Restoring a position of the shuffling iterator: the rest of a line in the buffer is lost, and the end-of-data mark remains (C09).
* Negative class membership probabilities are accepted (C13); `<s>` is not excluded from unigram probabilities computed from corpus
  counts (C14); unparsable numbers raise `ValueError` and a class of zero probabilities `ZeroDivisionError` (C18).
* Class moves that are evaluated as masked or nan are never made (C21).
* `sorted_nodes` with links from unreachable nodes to the initial node (C24); Kaldi lattices: initial node after a round trip (C25),
  missing final state (C26); SLF: words of unreachable nodes (C27), no escaping in the output, utterance `None`, several nodes without
  outgoing links (C70).
* The score of unknown words in class models when `<unk>` has a separate score (C33); the relative pruning option of `theanolm decode`
  is not passed on (C34).
* Rescored lattices: lattices that are not determinized (C35), null links with recombination (C35), transitions of null links (C36),
  scores of null links after the last word (C73).
* Subword boundaries that are not attached (C37); out-of-shortlist words in `score_line` (C39); excluding unknown words does not
  exclude out-of-shortlist words when the probability is distributed (C75); division by zero in the score report (C76).
* Validation points that are too dense are skipped (C42); learning rate after a restart (C44); the statistics function is never used
  (C65).
* RMSProp with Nesterov momentum drops the running mean (C48); file weights have no effect (C49).
* Architectures with more than ten inputs or list values are permuted (C50); the compatibility check is one-sided (C51); a field named
  `inputs` is accepted (C52).
* Convolution, hierarchical softmax and single-device softmax layers on a named device raise `KeyError` (C54); hierarchical softmax
  sums to less than one (C56); stacked bidirectional layers see the target (C58); padding enters backward layers (C59).
* A scalar parameter (Adam's time step) cannot be saved to the same file twice, so training with Adam fails at the second save (C64).
* A zero probability of an excluded or padded word makes the training cost nan (C78).
* The default device is a part of the parameter paths (C81); names with slashes collide (C81); `get_default_device` returns `None`
  instead of the documented 'cpu' (C82).
* without a vocabulary file, the output of wctool (at least the order of the words) depends on the order of the lines of the training text when words are equally frequent
* the words that are equally frequent get word IDs (and classes) in the order in which they first occur in the training files, so the order of the files on the command line changes the vocabulary; `compute_word_counts` counts `<s>` and `</s>` on every line although its documentation says that the markers are not added
* decode.py:236-237 numbers the lattices that have no utterance ID from zero in each job, so that different lattices get the same ID in different jobs (C145_violated).
* matrixfunctions.py:28 gives the maximum True as the exclusive limit 1 of the random integers, so that the test value of the mask is always zero (C144_violated_bool); line 32 expands the size as a sequence, although it may be an integer (C144_violated_size).
* shufflingbatchiterator.py:45-47 maps the file that the descriptor refers to. For a training file whose name ends in .gz, which the help text of `--training-set` allows, it is the compressed data, so that reading the first sentence raises UnicodeDecodeError (C143_violated_training).
* weightfunctions.py:97 tests `isinstance(value, numpy.ndarray)` where `part_value` is meant: a list that contains an array, which the documentation allows, raises an exception (C142_violated_arrays). An array whose size differs from `shape` is accepted (C142_violated_size).
* train.py:436-449: DisconnectedInputError is caught and a message is printed, but the command is not ended, and the variable `optimizer` that has not been assigned is used next. The user gets an UnboundLocalError after the message (C138_message).
* `Vocabulary.from_state` does not check that there are as many membership probabilities as class IDs. If the words at the end lack a probability and their classes have other words, the file is accepted and `get_word_prob()` raises KeyError for them (C136_no_probability).
* cost.py:249-254: the numerical stability term is added to the shares before the logarithm, so that the minimum of the expected cost is not at the true probabilities (C132_violated; the error is of the order of the term, which is 1e-6 by default).
* rescoredlattice.py:59-64: the documentation says that the language model probabilities are replaced with interpolated probabilities, but the score of the network is added to the one in the original lattice, without the weights. With the default weight 1.0 the best path of the rescored lattice may differ from the hypothesis that the decoder outputs (C131_violated).
* The decoder adds the membership probability of the preceding word instead of that of the predicted word (latticedecoder.py, `_append_word`),
  so when `</s>` shares its class with another word, every hypothesis gets a greater score than in text scoring (`C97_violated`); the order
  of the hypotheses does not change (`C99_order_partial`).
* RMSPropNesterovOptimizer discards the update of the mean of the squared gradients (rmspropnesterovoptimizer.py:94, see C48), so with zero momentum it gives other parameters than RMSPropSGDOptimizer after two updates (C118_violated_rmsprop).
* The noise-contrastive cost adds epsilon to the noise probabilities (cost.py:171-189), which biases the minimum unless the noise is uniform (C117_violated; the error is bounded in C117_error). Unigram noise is drawn with `replace=False` (classdistribution.py:203), so with more than one sample the classes do not have the probabilities that the cost assumes (C117_violated_replacement). The cost does not multiply the noise probability by the number of samples; this only scales the unnormalized probabilities.
* With `--exclude-unk`, `train` creates the network without the option (train.py:414-416) and only the scorer leaves `<unk>` out, but `score` gives the option also to the network (score.py:112-113), which removes `<unk>` from the distribution. The score command therefore reports a smaller perplexity than training for the same model and text (C116_violated_exclude).
* A negative dropout_rate is accepted: nothing is dropped, but the outputs are divided by 1 - rate (C113_violated).
* Without --exclude-unk, the training cost counts `<unk>` targets but the validation perplexity leaves them out whenever unigram probabilities are known (C112_unknown).
* The report and validation treat zero probabilities differently: `_score_text` leaves every -inf score out, `compute_perplexity` only words with a zero class membership probability, and raises NumberError for other infinite scores (C111_zero_probability).
* A move is not considered when the change in log likelihood contains the logarithm of zero, or in the NumPy implementation a sum
  where all the counts are zero (numpybigramoptimizer.py:101-139, theanobigramoptimizer.py:307-318), so wctool can stop in classes from which
  a single move increases the probability of the training text (`C108_violated`).
* Without validation data the model is saved at the end of an epoch before the epoch number is increased (trainer.py:236-237, 250), so
  training that is continued from the file makes one epoch more than the maximum (`C107_violated_passes`).
* The number of times that the learning rate has been decreased is not saved, so training that is continued can go on longer
  (`C107_violated_stopper`).
* With Adam, saving the training state to a file that already has a state raises an exception (parameters.py:89: `[:]` of a scalar), so
  training without validation data fails at the end of the second epoch (trainer.py:234, `C106_violated_adam`).  The state of the
  training data iterator does not include the rest of a sentence that has been read (`C106`).  Names of devices and optimizer variables
  can collide (`C106_violated_device`).
* Comparing two word classes that have equally many words raises a KeyError if a word belongs only to the first one (wordclass.py:141,
  `C104_violated`), and the comparison is not symmetric (`C104_not_symmetric`).
* The link that is added for a recombined hypothesis gets the language model score of the last link of the hypothesis that was kept,
  also when the last link of the recombined hypothesis has another language model score (rescoredlattice.py:165-170, `C103_violated`).
* Hypotheses that differ only in words before the recombination order are recombined once more after the end of the
  sentence (latticedecoder.py:407-409).  The rescored lattice skips these recombinations, because there is no link for the
  end of sentence (rescoredlattice.py:156-157), so word sequences of the original lattice are missing although nothing was
  pruned (`C101_violated`).
* The link that is added to a rescored lattice for a recombined token has the acoustic score and transitions of the last
  link of the token that was kept (rescoredlattice.py:165-170); if the two tokens entered the node through different links
  the lattice has a path with scores that no path of the original lattice has (`C100_violated`).
* wctool writes the probability 0.0 for the words of a class that does not occur in the training data; the file cannot
  be read (`ZeroDivisionError`).  With a vocabulary created from the training data this concerns `<unk>` in every run
  (`C84_violated_unk`).
* When the output of wctool is a pipe, the classes are written several times (`C84_violated_pipe`).
* The decode command numbers lattices without an utterance ID from zero in each job; the outputs of the jobs cannot be
  combined (`C85_violated_jobs`).
* In the output format "full" there are three scores, although the help text promises two, and the number of words
  includes `<s>` and `</s>` (`C85_violated_count`).
* `decode --output slf` writes all lattices of a job into one file; the SLF reader does not accept a file with two lattices
  (`C86_violated_two`).
* `decode --output slf` writes `lmscale` and `wdpenalty` only from the command line: the values of the header of the original
  lattice are used in decoding but are lost (`C86_violated_scale`), and with `--log-base` the penalty is written without
  conversion although the file does not declare a base (`C86_violated_penalty`).
* A negative `--n-best` drops hypotheses from the end of the list (`bestTokens`).
* When a sentence has no predicted words, `score --output word-scores` stops with `ZeroDivisionError` after the lines about
  its words, and the rest of the text is not reported (`C88_stops`, `C88_violated`).
* `score --output utterance-scores` stops with `IndexError` at the first line that has an out-of-shortlist word
  (`C89_violated`).
* The train command stores the vocabulary in the model file before it checks its arguments, and the file is written also
  when the command exits because of them.  The corrected command then uses the stored vocabulary, although its options may
  name another vocabulary (`C92_violated`).
* recipes/common/fix-class-probabilities.py writes zero probabilities for the words of a class without counts when the input
  is in mkcls format; the output cannot be read as a vocabulary (`C93_violated`).
* recipes/common/ngramcounts.py: `prune_count` uses an undefined variable (`C94_violated`).

### Noticed

* Sampler: the requested length includes the initial `<s>`; length 0 with a seed is an `IndexError`; a seed word that is not in the
  vocabulary is a `KeyError`, out of shortlist an `IndexError`.
* `Parameters.set_state` has updated some of the parameters when it raises.
* Network creation: `InputError` is not imported in basiclayer.py (`NameError` on an unsupported activation); `NetworkInput` modifies
  the dictionary of the architecture; `reverse_time` is `bool` of a string; a duplicate layer name replaces the earlier layer; a
  bidirectional layer of size 1 has a backward layer of size 0.
* Interpolation: a log probability of plus infinity with weight 0 gives nan.
* Rescored lattice: the LM score is the sum of the original lattice score and the network score (the documentation says
  interpolated); incoming links are not registered; an unreachable cycle of null links would be a `RecursionError`.
* Decoder: the literal word `<unk>` in a lattice has an ID in the shortlist, so that the penalty is not applied to it;
  `abs_min_max_tokens` is a float (a slice with it is a `TypeError`); `max_tokens` 0 is an `AssertionError`; the class membership
  probability is that of the input word.
* Trainer: the state of the stopper is not saved; without validation the saved epoch number is not incremented; annealing resets the
  epoch number, so that more than `max_epochs` passes are possible.
* Optimizer: Adam requires the momentum option but does not use it.
* Architecture: `check_state` raises `KeyError` when something is missing from the file.
* Network: softmax with `exclude_unk` zeroes the whole class of `<unk>`, hierarchical softmax ignores the option; gated convolution
  and reverse-time layers cannot be evaluated step by step.
* Costs: noise-contrastive estimation does not have the number of samples as a factor; no counted words gives nan.

## Testing the theorems

Wrong variants of the model (wrong boundaries, swapped arguments, dropped updates, missed cases) were built in a scratch copy.  Each line
of `seeded/LOG.jsonl` has the definition, the edit, the claim it breaks, the theorems that failed, and the theorems that were added or
tightened when nothing failed.
