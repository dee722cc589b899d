{
 "claims": [
  {
   "property": "C01",
   "status": "proved",
   "theorems": [
    "TheanoLM.C01_no_error",
    "TheanoLM.C01_blank",
    "TheanoLM.C01_words",
    "TheanoLM.C01_delimited",
    "TheanoLM.C01_idempotent"
   ],
   "note": "utterance_from_line for every line; decoding of bytes is not modelled"
  },
  {
   "property": "C02",
   "status": "proved",
   "theorems": [
    "TheanoLM.C02_positions",
    "TheanoLM.C02_lines_cover",
    "TheanoLM.C02_one_line"
   ],
   "note": ""
  },
  {
   "property": "C03",
   "status": "proved",
   "theorems": [
    "TheanoLM.C03_pass",
    "TheanoLM.C03_shuffled_pass",
    "TheanoLM.C03_zero_length_diverges"
   ],
   "note": "max_sequence_length must not be 0 (proved to diverge then); batch size at least 1"
  },
  {
   "property": "C04",
   "status": "partial",
   "theorems": [
    "TheanoLM.C04_partial",
    "TheanoLM.C04_violated"
   ],
   "note": "the code loses the last word (always </s>) of an utterance whose length modulo the maximum sequence length is 1; concrete witness proved"
  },
  {
   "property": "C05",
   "status": "proved",
   "theorems": [
    "TheanoLM.C05_len",
    "TheanoLM.C05_len_shuffled"
   ],
   "note": "for both iterators"
  },
  {
   "property": "C06",
   "status": "proved",
   "theorems": [
    "TheanoLM.C06_passes"
   ],
   "note": ""
  },
  {
   "property": "C09",
   "status": "partial",
   "theorems": [
    "TheanoLM.C09_partial",
    "TheanoLM.C09_rest",
    "TheanoLM.C09_restorable",
    "TheanoLM.C09_violated_buffer",
    "TheanoLM.C09_violated_eof"
   ],
   "note": "the rest of a line in the buffer is lost, and the end-of-data mark is not cleared; both violations have witnesses"
  },
  {
   "property": "C10",
   "status": "proved",
   "theorems": [
    "TheanoLM.C10_samples",
    "TheanoLM.C10_constructor"
   ],
   "note": "contracts of numpy.random.choice and shuffle assumed as ShuffleOutcome; exact rational fractions instead of floats"
  },
  {
   "property": "C11",
   "status": "proved",
   "theorems": [
    "TheanoLM.C11_ids"
   ],
   "note": "Constructible = from file, from word counts, recomputed probabilities, restored from a state"
  },
  {
   "property": "C12",
   "status": "proved",
   "theorems": [
    "TheanoLM.C12_special"
   ],
   "note": ""
  },
  {
   "property": "C13",
   "status": "partial",
   "theorems": [
    "TheanoLM.C13_sums",
    "TheanoLM.C13_recomputed",
    "TheanoLM.C13_counts",
    "TheanoLM.C13_file_partial",
    "TheanoLM.C13_violated"
   ],
   "note": "sums to one always; non-negativity can be violated by a class file with negative probabilities (witness)"
  },
  {
   "property": "C14",
   "status": "partial",
   "theorems": [
    "TheanoLM.C14_partial",
    "TheanoLM.C14_counts",
    "TheanoLM.C14_violated_sos",
    "TheanoLM.C14_violated_zero"
   ],
   "note": "the code does not exclude <s> when probabilities are computed from corpus counts, and gives all zeros when nothing was counted (witnesses)"
  },
  {
   "property": "C15",
   "status": "proved",
   "theorems": [
    "TheanoLM.C15_round_trip",
    "TheanoLM.C15_incompatible"
   ],
   "note": ""
  },
  {
   "property": "C16",
   "status": "proved",
   "theorems": [
    "TheanoLM.C16_balanced",
    "TheanoLM.C16_default",
    "TheanoLM.C16_zero"
   ],
   "note": ""
  },
  {
   "property": "C17",
   "status": "proved",
   "theorems": [
    "TheanoLM.C17_distribution",
    "TheanoLM.C17_not_counted"
   ],
   "note": "exact rational numbers instead of log probabilities in floats"
  },
  {
   "property": "C18",
   "status": "partial",
   "theorems": [
    "TheanoLM.C18_contents",
    "TheanoLM.C18_probs",
    "TheanoLM.C18_accepted",
    "TheanoLM.C18_rejected_partial",
    "TheanoLM.C18_violated",
    "TheanoLM.C18_violated_zero"
   ],
   "note": "an unparsable number raises ValueError and an all-zero class ZeroDivisionError instead of InputError (witnesses)"
  },
  {
   "property": "C07",
   "status": "proved",
   "theorems": [
    "TheanoLM.C07_training",
    "TheanoLM.C07_scoring",
    "TheanoLM.C07_empty",
    "TheanoLM.C07_file_ids"
   ],
   "note": "file IDs are 8-bit: exact for at most 128 files"
  },
  {
   "property": "C08",
   "status": "proved",
   "theorems": [
    "TheanoLM.C08_valid_ids",
    "TheanoLM.C08_any_id",
    "TheanoLM.C08_words_to_ids"
   ],
   "note": ""
  },
  {
   "property": "C19",
   "status": "proved",
   "theorems": [
    "TheanoLM.C19_words",
    "TheanoLM.C19_bigrams",
    "TheanoLM.C19_sums"
   ],
   "note": "counts are exact integers (overflow of 32-bit counters not modelled)"
  },
  {
   "property": "C20",
   "status": "proved",
   "theorems": [
    "TheanoLM.C20_exact",
    "TheanoLM.C20_recomputed",
    "TheanoLM.C20_assignment"
   ],
   "note": "both the NumPy and the Theano implementation"
  },
  {
   "property": "C21",
   "status": "partial",
   "theorems": [
    "TheanoLM.C21_partial",
    "TheanoLM.C21_log_likelihood",
    "TheanoLM.C21_defined",
    "TheanoLM.C21_violated"
   ],
   "note": "the evaluation gives masked (NumPy) or nan (Theano) instead of a number for some moves although no class count is zero; whenever it gives a number the number is right"
  },
  {
   "property": "C22",
   "status": "proved",
   "theorems": [
    "TheanoLM.C22_increase",
    "TheanoLM.C22_terminates"
   ],
   "note": "exact arithmetic; moves whose evaluation gives no number are never made"
  },
  {
   "property": "C23",
   "status": "proved",
   "theorems": [
    "TheanoLM.C23_special",
    "TheanoLM.C23_step"
   ],
   "note": ""
  },
  {
   "property": "C24",
   "status": "partial",
   "theorems": [
    "TheanoLM.C24_partial",
    "TheanoLM.C24_terminates",
    "TheanoLM.C24_cycle_exists",
    "TheanoLM.C24_topological",
    "TheanoLM.C24_complete",
    "TheanoLM.C24_cycle_omitted",
    "TheanoLM.C24_violated"
   ],
   "note": "if the initial node has a link from a node that is not reachable, nodes may be listed before their predecessors (witness); everything is proved when the initial node has no incoming links"
  },
  {
   "property": "C66",
   "status": "proved",
   "theorems": [
    "TheanoLM.C66_time_order",
    "TheanoLM.C66_sorted_times"
   ],
   "note": ""
  },
  {
   "property": "C67",
   "status": "proved",
   "theorems": [
    "TheanoLM.C67_relative"
   ],
   "note": ""
  },
  {
   "property": "C68",
   "status": "proved",
   "theorems": [
    "TheanoLM.C68_memberships"
   ],
   "note": ""
  },
  {
   "property": "C69",
   "status": "proved",
   "theorems": [
    "TheanoLM.C69_class_probs"
   ],
   "note": ""
  },
  {
   "property": "C25",
   "status": "partial",
   "theorems": [
    "TheanoLM.C25_partial",
    "TheanoLM.C25_same_initial",
    "TheanoLM.C25_violated"
   ],
   "note": "the initial node changes if it is not the least node that has outgoing links (witness); everything else is proved for all lattices"
  },
  {
   "property": "C26",
   "status": "partial",
   "theorems": [
    "TheanoLM.C26_partial",
    "TheanoLM.C26_no_links",
    "TheanoLM.C26_bad_fields",
    "TheanoLM.C26_violated"
   ],
   "note": "a lattice without a final-state line is accepted, with a final node that cannot be reached (witness)"
  },
  {
   "property": "C27",
   "status": "partial",
   "theorems": [
    "TheanoLM.C27_partial",
    "TheanoLM.C27_terminates",
    "TheanoLM.C27_violated"
   ],
   "note": "words of nodes are not moved to links that are not reachable from the initial node (witness)"
  },
  {
   "property": "C28",
   "status": "proved",
   "theorems": [
    "TheanoLM.C28_jobs",
    "TheanoLM.C28_invalid"
   ],
   "note": ""
  },
  {
   "property": "C29",
   "status": "proved",
   "theorems": [
    "TheanoLM.C29_tokens",
    "TheanoLM.C29_sorted",
    "TheanoLM.C29_total",
    "TheanoLM.C29_recombined"
   ],
   "note": ""
  },
  {
   "property": "C30",
   "status": "proved",
   "theorems": [
    "TheanoLM.C30_best_updated",
    "TheanoLM.C30_intermediate",
    "TheanoLM.C30_pruning",
    "TheanoLM.C30_limit",
    "TheanoLM.C30_best",
    "TheanoLM.C30_beam",
    "TheanoLM.C30_zero_limit"
   ],
   "note": "non-empty under the condition that the limit is not zero; with the limit zero decoding fails (C30_zero_limit)"
  },
  {
   "property": "C31",
   "status": "proved",
   "theorems": [
    "TheanoLM.C31_recombination"
   ],
   "note": ""
  },
  {
   "property": "C32",
   "status": "proved",
   "theorems": [
    "TheanoLM.C32_best",
    "TheanoLM.C32_best_model",
    "TheanoLM.C32_nbest",
    "TheanoLM.C32_order"
   ],
   "note": "C32_best uses the scores that the decoder adds for words; C32_best_model the scores of the language model, when the decoder computes them correctly (C33)"
  },
  {
   "property": "C33",
   "status": "partial",
   "theorems": [
    "TheanoLM.C33_partial",
    "TheanoLM.C33_offset",
    "TheanoLM.C33_computed",
    "TheanoLM.C33_score_unique",
    "TheanoLM.C33_violated"
   ],
   "note": "does not hold for class models when unknown words get a separate score (witness). Otherwise the score of every hypothesis is right up to a number that is the same for all hypotheses (C33_offset), zero if <s> and </s> have the same membership probability (C33_partial)"
  },
  {
   "property": "C34",
   "status": "partial",
   "theorems": [
    "TheanoLM.C34_violated",
    "TheanoLM.C34_no_tightening",
    "TheanoLM.C34_partial",
    "TheanoLM.C34_beam_partial"
   ],
   "note": "the command line option has no effect, for all inputs; the effect of the decoder option that it should set is proved, for the limit on the number of tokens and for the beam"
  },
  {
   "property": "C71",
   "status": "proved",
   "theorems": [
    "TheanoLM.C71_kaldi_vocabulary"
   ],
   "note": ""
  },
  {
   "property": "C72",
   "status": "proved",
   "theorems": [
    "TheanoLM.C72_archive"
   ],
   "note": ""
  },
  {
   "property": "C35",
   "status": "partial",
   "theorems": [
    "TheanoLM.C35_contains_partial",
    "TheanoLM.C35_sound_partial",
    "TheanoLM.C35_exact_partial",
    "TheanoLM.C35_violated",
    "TheanoLM.C35_violated_null"
   ],
   "note": "does not hold for lattices that are not determinized (witness; the program logs a warning), and soundness not for lattices with null links when tokens are recombined (witness); holds otherwise"
  },
  {
   "property": "C36",
   "status": "partial",
   "theorems": [
    "TheanoLM.C36_partial",
    "TheanoLM.C36_violated"
   ],
   "note": "the transitions of null links are placed after those of the word that follows (witness); holds when null links do not have transitions and nothing is recombined"
  },
  {
   "property": "C73",
   "status": "partial",
   "theorems": [
    "TheanoLM.C73_partial",
    "TheanoLM.C73_no_null_scores",
    "TheanoLM.C73_violated"
   ],
   "note": "scores of null links after the last word are lost (witness); proved for results without recombination"
  },
  {
   "property": "C74",
   "status": "proved",
   "theorems": [
    "TheanoLM.C74_succeeds"
   ],
   "note": "recursion depth at least the number of nodes plus one is assumed"
  },
  {
   "property": "C37",
   "status": "partial",
   "theorems": [
    "TheanoLM.C37_succeeds",
    "TheanoLM.C37_plain",
    "TheanoLM.C37_affix",
    "TheanoLM.C37_boundary",
    "TheanoLM.C37_count",
    "TheanoLM.C37_affix_sum",
    "TheanoLM.C37_boundary_sum_partial",
    "TheanoLM.C37_affix_unknown",
    "TheanoLM.C37_boundary_unknown",
    "TheanoLM.C37_boundary_violated"
   ],
   "note": "with word boundary tokens, the log probability of a boundary token right after the first word or after another boundary token is lost (witness); the rest is proved for all inputs"
  },
  {
   "property": "C38",
   "status": "proved",
   "theorems": [
    "TheanoLM.C38_word_score_unique",
    "TheanoLM.C38_perplexity",
    "TheanoLM.C38_no_words",
    "TheanoLM.C38_score_batch",
    "TheanoLM.C38_all_matrices"
   ],
   "note": "with a shortlist the unknown words are always excluded, without it if so requested; numbers are elements of an ordered field with infinities and nan, rounding is not modelled"
  },
  {
   "property": "C39",
   "status": "partial",
   "theorems": [
    "TheanoLM.C39_blank",
    "TheanoLM.C39_line_partial",
    "TheanoLM.C39_in_batch",
    "TheanoLM.C39_violated"
   ],
   "note": "a line with an out-of-shortlist word raises IndexError (witness); words of zero membership probability are left out of the line score; proved for lines of shortlist words"
  },
  {
   "property": "C75",
   "status": "partial",
   "theorems": [
    "TheanoLM.C75_excluded_partial",
    "TheanoLM.C75_violated"
   ],
   "note": "holds only when the <unk> probability is not distributed (witness for the other case)"
  },
  {
   "property": "C76",
   "status": "partial",
   "theorems": [
    "TheanoLM.C76_statistics",
    "TheanoLM.C76_succeeds_partial",
    "TheanoLM.C76_violated"
   ],
   "note": "division by zero when no word of the text (or, with word level output, of a sentence) is predicted (witness); all other claims proved"
  },
  {
   "property": "C40",
   "status": "proved",
   "theorems": [
    "TheanoLM.C40_times",
    "TheanoLM.C40_count_prefix",
    "TheanoLM.C40_count",
    "TheanoLM.C40_last",
    "TheanoLM.C40_gap",
    "TheanoLM.C40_every",
    "TheanoLM.C40_word_classes"
   ],
   "note": "frequencies are natural numbers"
  },
  {
   "property": "C41",
   "status": "proved",
   "theorems": [
    "TheanoLM.C41_lookahead"
   ],
   "note": ""
  },
  {
   "property": "C42",
   "status": "partial",
   "theorems": [
    "TheanoLM.C42_from_partial",
    "TheanoLM.C42_partial",
    "TheanoLM.C42_violated",
    "TheanoLM.C42_stale_samples"
   ],
   "note": "holds when the samples of validation points do not overlap and no samples are left over from an earlier epoch; otherwise scheduled points are skipped, or samples and the saved model are from an earlier epoch (witnesses)"
  },
  {
   "property": "C43",
   "status": "proved",
   "theorems": [
    "TheanoLM.C43_file",
    "TheanoLM.C43_history",
    "TheanoLM.C43_saved",
    "TheanoLM.C43_since"
   ],
   "note": "for all histories with any number of restarts"
  },
  {
   "property": "C44",
   "status": "partial",
   "theorems": [
    "TheanoLM.C44_partial",
    "TheanoLM.C44_initial",
    "TheanoLM.C44_saved",
    "TheanoLM.C44_restart_violated"
   ],
   "note": "proved within one training process; a new process started from the file after annealing continues with the learning rate of the saved model (witness)"
  },
  {
   "property": "C45",
   "status": "proved",
   "theorems": [
    "TheanoLM.C45_only_if",
    "TheanoLM.C45_if"
   ],
   "note": ""
  },
  {
   "property": "C46",
   "status": "proved",
   "theorems": [
    "TheanoLM.C46_max_epochs",
    "TheanoLM.C46_epoch",
    "TheanoLM.C46_minibatch",
    "TheanoLM.C46_finished"
   ],
   "note": "the costs are assumed to be nonnegative, which perplexities are; the history that a stopper knows is that of one process"
  },
  {
   "property": "C65",
   "status": "partial",
   "theorems": [
    "TheanoLM.C65_partial",
    "TheanoLM.C65_samples",
    "TheanoLM.C65_median",
    "TheanoLM.C65_violated"
   ],
   "note": "the given statistics function is stored under a wrong name and never used, the median is always used (witness)"
  },
  {
   "property": "C77",
   "status": "proved",
   "theorems": [
    "TheanoLM.C77_no_failure",
    "TheanoLM.C77_restart"
   ],
   "note": ""
  },
  {
   "property": "C47",
   "status": "proved",
   "theorems": [
    "TheanoLM.C47",
    "TheanoLM.C47_update"
   ],
   "note": "over any ordered field with a square root (the real numbers are an instance); rounding is not modelled"
  },
  {
   "property": "C48",
   "status": "partial",
   "theorems": [
    "TheanoLM.C48_sgd",
    "TheanoLM.C48_nesterov",
    "TheanoLM.C48_nesterov_lookahead",
    "TheanoLM.C48_adagrad",
    "TheanoLM.C48_adadelta",
    "TheanoLM.C48_adam",
    "TheanoLM.C48_rmsprop_sgd",
    "TheanoLM.C48_rmsprop_nesterov_partial",
    "TheanoLM.C48_rmsprop_nesterov_violated"
   ],
   "note": "proved for six of the seven methods; RMSProp with Nesterov momentum never stores the running mean (proved to be violated, with the equations that it follows instead)"
  },
  {
   "property": "C49",
   "status": "partial",
   "theorems": [
    "TheanoLM.C49_violated",
    "TheanoLM.C49_index"
   ],
   "note": "the claim is false for this code: the weighted learning rate is computed but not used, and it is proved that updates do not depend on the weights"
  },
  {
   "property": "C50",
   "status": "partial",
   "theorems": [
    "TheanoLM.C50_partial",
    "TheanoLM.C50_order",
    "TheanoLM.C50_again",
    "TheanoLM.C50_violated"
   ],
   "note": "with more than ten inputs or list values the order changes, since they are read in the order of their numbers as strings (witness); proved for at most ten, and up to order for any number"
  },
  {
   "property": "C51",
   "status": "partial",
   "theorems": [
    "TheanoLM.C51_partial",
    "TheanoLM.C51_self",
    "TheanoLM.C51_detects",
    "TheanoLM.C51_missing",
    "TheanoLM.C51_violated"
   ],
   "note": "the check is exactly characterized: it does not notice inputs, layers, options and list values that only the saved architecture has (witness)"
  },
  {
   "property": "C52",
   "status": "partial",
   "theorems": [
    "TheanoLM.C52_partial",
    "TheanoLM.C52_accepts_partial",
    "TheanoLM.C52_violated"
   ],
   "note": "a layer with a field named inputs is accepted although it has no inputs (witness); accepted exactly when well-formed if no field has the name of one of the collected lists"
  },
  {
   "property": "C53",
   "status": "proved",
   "theorems": [
    "TheanoLM.C53_combine",
    "TheanoLM.C53_slice",
    "TheanoLM.C53_initial",
    "TheanoLM.C53_rejects"
   ],
   "note": "Combining states and taking the slice of each sequence gives back its state; inputs with other shapes are rejected."
  },
  {
   "property": "C54",
   "status": "partial",
   "theorems": [
    "TheanoLM.C54_ranges",
    "TheanoLM.C54_errors",
    "TheanoLM.C54_preact",
    "TheanoLM.C54_conv_partial",
    "TheanoLM.C54_violated_conv",
    "TheanoLM.C54_violated_softmax",
    "TheanoLM.C54_softmax_partial",
    "TheanoLM.C54_duplicate"
   ],
   "note": "The parts cover every output once and differ by at most one in size, and the concatenated pre-activation equals that without splitting. Violated by the code in two cases: a convolution layer with a named device, and a softmax layer with one named device, read parameters without the device name and raise KeyError. Matrix shapes are not checked in the model."
  },
  {
   "property": "C55",
   "status": "proved",
   "theorems": [
    "TheanoLM.C55",
    "TheanoLM.C55_least"
   ],
   "note": "Exact integer square root and division; floating-point rounding above 2^52 is not modelled."
  },
  {
   "property": "C56",
   "status": "partial",
   "theorems": [
    "TheanoLM.C56_partial",
    "TheanoLM.C56_hsoftmax_partial",
    "TheanoLM.C56_target",
    "TheanoLM.C56_softmax_targets",
    "TheanoLM.C56_violated"
   ],
   "note": "Proved for softmax layers over any ordered field with a positive exponential function (the reals). For hierarchical softmax the sum is one exactly when the product of the level sizes equals the number of classes, and less than one otherwise (witness with five classes). Rounding is not modelled."
  },
  {
   "property": "C57",
   "status": "proved",
   "theorems": [
    "TheanoLM.C57",
    "TheanoLM.C57_complete"
   ],
   "note": "Non-interference over any two mini-batches with the same prefix; every position gets an output from every layer."
  },
  {
   "property": "C58",
   "status": "partial",
   "theorems": [
    "TheanoLM.C58_partial",
    "TheanoLM.C58_violated"
   ],
   "note": "Proved for networks where inputs of bidirectional layers are computed from each word alone and their outputs are not used by recurrent, convolution or bidirectional layers. Stacked bidirectional layers see the target word (witness over the reals)."
  },
  {
   "property": "C59",
   "status": "partial",
   "theorems": [
    "TheanoLM.C59_partial",
    "TheanoLM.C59_batch",
    "TheanoLM.C59_violated"
   ],
   "note": "Proved for networks without bidirectional layers, and for all networks when the mini-batches have the same length. With bidirectional layers masked padding changes the outputs, since the shifted input is not masked (witness over the reals)."
  },
  {
   "property": "C60",
   "status": "proved",
   "theorems": [
    "TheanoLM.C60",
    "TheanoLM.C60_converse",
    "TheanoLM.C60_rejects"
   ],
   "note": "Both directions. All networks that can be evaluated step by step; the others are rejected."
  },
  {
   "property": "C61",
   "status": "proved",
   "theorems": [
    "TheanoLM.C61",
    "TheanoLM.C61_written",
    "TheanoLM.C61_succeeds"
   ],
   "note": "The random outcomes are parameters, so the claim holds for all of them. The requested length counts the initial start-of-sentence symbol."
  },
  {
   "property": "C62",
   "status": "proved",
   "theorems": [
    "TheanoLM.C62",
    "TheanoLM.C62_value",
    "TheanoLM.C62_weights",
    "TheanoLM.C62_loglinear_zero",
    "TheanoLM.C62_loglinear",
    "TheanoLM.C62_loglinear_nan"
   ],
   "note": "Over the reals, for any set of exponentials that floating point arithmetic rounds to zero, so both branches are covered. Rounding and the 16 digits of the decimal library are not modelled."
  },
  {
   "property": "C63",
   "status": "proved",
   "theorems": [
    "TheanoLM.C63_uniform",
    "TheanoLM.C63_loguniform",
    "TheanoLM.C63_multinomial"
   ],
   "note": "Also proves that the interval of random numbers that gives a class has the length that its probability says. Rounding is not modelled."
  },
  {
   "property": "C64",
   "status": "proved",
   "theorems": [
    "TheanoLM.C64",
    "TheanoLM.C64_add",
    "TheanoLM.C64_missing",
    "TheanoLM.C64_saves",
    "TheanoLM.C64_scalar_again"
   ],
   "note": "Round trip for every save that succeeds, and when a save succeeds. A scalar parameter (the Adam time step) cannot be saved to the same file twice: the write through [:] raises TypeError in h5py; proved as C64_scalar_again."
  },
  {
   "property": "C79",
   "status": "proved",
   "theorems": [
    "TheanoLM.C79_input",
    "TheanoLM.C79_projection",
    "TheanoLM.C79_fully_connected",
    "TheanoLM.C79_highway",
    "TheanoLM.C79_dropout",
    "TheanoLM.C79_addition",
    "TheanoLM.C79_recurrent",
    "TheanoLM.C79_bidirectional",
    "TheanoLM.C79_softmax",
    "TheanoLM.C79_hsoftmax",
    "TheanoLM.C79_glu"
   ],
   "note": "Per-unit equations; the parameters are those that the layer reads from its devices. Numbers are an arbitrary type with the order of the additions kept, so no rounding assumption is needed; Theano's matrix products are modelled as sums in order."
  },
  {
   "property": "C80",
   "status": "proved",
   "theorems": [
    "TheanoLM.C80_layers",
    "TheanoLM.C80_parameters",
    "TheanoLM.C80_evaluates",
    "TheanoLM.C80_evaluates_iff",
    "TheanoLM.C80_trained"
   ],
   "note": "A description whose network is created; the prior of the classes, if given, is only used by the softmax output layer. Duplicate layer names and the option reverse_time are outside the model. A convolution, hierarchical softmax or single-device softmax layer must not be assigned to a named device (KeyError in the code), stated as Placed."
  },
  {
   "property": "C78",
   "status": "proved",
   "theorems": [
    "TheanoLM.C78_cost",
    "TheanoLM.C78_padding",
    "TheanoLM.C78_cross_entropy",
    "TheanoLM.C78_zero_probability",
    "TheanoLM.C78_nce",
    "TheanoLM.C78_blackout",
    "TheanoLM.C78_shares",
    "TheanoLM.C78_blackout_unnormalized",
    "TheanoLM.C78_noise",
    "TheanoLM.C78_sharing_error",
    "TheanoLM.C78_sampling",
    "TheanoLM.C78_sampling_devices",
    "TheanoLM.C78_unigram",
    "TheanoLM.C78_noise_distribution"
   ],
   "note": "Proved over exact numbers with the special values: a zero probability outside the mask makes the cost nan (C78_zero_probability). Noise-contrastive estimation does not have the number of noise samples as a factor, unlike the article. The random draws are an arbitrary function."
  },
  {
   "property": "C81",
   "status": "partial",
   "theorems": [
    "TheanoLM.C81_saves",
    "TheanoLM.C81_partial",
    "TheanoLM.C81_violated_device",
    "TheanoLM.C81_violated_name"
   ],
   "note": "Missing: more than ten inputs or list values (C50_violated), names with slashes (a path may collide, C81_violated_name), and another default device than the network was saved with (C81_violated_device); in those cases the code violates the property. All layer types; repeated saves to the same file."
  },
  {
   "property": "C82",
   "status": "proved",
   "theorems": [
    "TheanoLM.C82",
    "TheanoLM.C82_no_gpu"
   ],
   "note": "The documentation string says cpu when there is no GPU, the code returns None (C82_no_gpu). The contexts are an input of the model."
  },
  {
   "property": "C70",
   "status": "partial",
   "theorems": [
    "TheanoLM.C70_partial",
    "TheanoLM.C70_again",
    "TheanoLM.C70_violated_word",
    "TheanoLM.C70_violated_hash",
    "TheanoLM.C70_violated_utterance",
    "TheanoLM.C70_violated_final"
   ],
   "note": "Missing: words and utterance IDs with quotes, backslashes or (words) hash signs, spaces or a leading exclamation mark, lattices without an utterance ID, and lattices where another node than the final node has no outgoing links; the code violates the property in those cases, with witnesses. Numbers are assumed to be read back as they were written."
  },
  {
   "property": "C83",
   "status": "proved",
   "theorems": [
    "TheanoLM.C83",
    "TheanoLM.C83_quoted"
   ],
   "note": "The behaviour of shlex in the Python library is part of the model: POSIX mode, split at white space, double quotes, backslash, comments."
  },
  {
   "property": "C84",
   "status": "partial",
   "theorems": [
    "TheanoLM.C84_classes",
    "TheanoLM.C84_srilm_partial",
    "TheanoLM.C84_violated_pipe",
    "TheanoLM.C84_violated_unk"
   ],
   "note": "Proved for the format classes and a seekable output. In the format srilm-classes a class that does not occur in the training data is written with zero probabilities and the file cannot be read (ZeroDivisionError); that is always the case when the vocabulary is created from training data without <unk> (C84_violated_unk). When the output is not seekable, the classes are written several times and cannot be read (C84_violated_pipe). Rounding of the probabilities is not modelled."
  },
  {
   "property": "C85",
   "status": "partial",
   "theorems": [
    "TheanoLM.C85_nbest",
    "TheanoLM.C85_best",
    "TheanoLM.C85_job",
    "TheanoLM.C85_numbers",
    "TheanoLM.C85_violated_jobs",
    "TheanoLM.C85_violated_count"
   ],
   "note": "Proved for words and utterance IDs that are nonempty and without white space, N >= 0, and scores whose text is read back as the same number. Violated: the numbering starts from zero in every job, so that different jobs write the same utterance IDs (C85_violated_jobs); the number of words in the format full counts the sentence boundary markers (C85_violated_count)."
  },
  {
   "property": "C86",
   "status": "partial",
   "theorems": [
    "TheanoLM.C86_partial",
    "TheanoLM.C86_parameters",
    "TheanoLM.C86_violated_two",
    "TheanoLM.C86_violated_scale",
    "TheanoLM.C86_violated_penalty"
   ],
   "note": "Proved for one lattice that is determinized, has no cycles of null links and fewer nodes than the recursion limit, with plain words and utterance ID. Violated: the lattices of a job are written one after another into one file that the reader does not accept (C86_violated_two); the scale and penalty from the header of the original lattice are used in decoding but not written (C86_violated_scale); with a base of logarithm the penalty is written in that base although the file is in natural logarithms (C86_violated_penalty). Recombined hypotheses and null links with scores: see C35 and C73."
  },
  {
   "property": "C87",
   "status": "partial",
   "theorems": [
    "TheanoLM.C87_partial"
   ],
   "note": "Proved for lattices that are determinized, have no cycles of null links and fewer nodes than the recursion limit, with utterance IDs without white space, words of the Kaldi vocabulary, and transitions without commas and white space. Numbers are assumed to be read back as they were written. Recombined hypotheses and null links with scores: see C35, C36 and C73."
  },
  {
   "property": "C88",
   "status": "partial",
   "theorems": [
    "TheanoLM.C88_report_partial",
    "TheanoLM.C88_stops",
    "TheanoLM.C88_violated"
   ],
   "note": "Proved when there are predicted words for the perplexities, for networks that score a sequence independently of the rest of the mini-batch (C59), and numbers without newlines. Without predicted words the command fails with ZeroDivisionError after a part of the report (C88_stops says which part; C88_violated)."
  },
  {
   "property": "C89",
   "status": "partial",
   "theorems": [
    "TheanoLM.C89_scores_partial",
    "TheanoLM.C89_unique",
    "TheanoLM.C89_agrees",
    "TheanoLM.C89_violated"
   ],
   "note": "Proved for words that are in the shortlist or unknown and finite scores. A line with an out-of-shortlist word makes the command fail with IndexError, and the lines after it are not scored (C89_violated)."
  },
  {
   "property": "C90",
   "status": "proved",
   "theorems": [
    "TheanoLM.C90_text",
    "TheanoLM.C90_file",
    "TheanoLM.C90_accepts",
    "TheanoLM.C90_membership",
    "TheanoLM.C90_legacy",
    "TheanoLM.C90_stored",
    "TheanoLM.C90_resume",
    "TheanoLM.C90_missing"
   ],
   "note": ""
  },
  {
   "property": "C91",
   "status": "proved",
   "theorems": [
    "TheanoLM.C91_result",
    "TheanoLM.C91_not_trained",
    "TheanoLM.C91_without_validation"
   ],
   "note": ""
  },
  {
   "property": "C92",
   "status": "partial",
   "theorems": [
    "TheanoLM.C92_arguments",
    "TheanoLM.C92_rejected_partial",
    "TheanoLM.C92_violated"
   ],
   "note": "The acceptance of arguments and the weights are proved. Violated: the vocabulary is stored in the model file before the arguments are checked, and the file is written also when the command exits; a later run with another vocabulary file silently uses the vocabulary of the rejected run (C92_violated). C92_rejected_partial says what the file contains after a rejected run."
  },
  {
   "property": "C93",
   "status": "partial",
   "theorems": [
    "TheanoLM.C93_probabilities",
    "TheanoLM.C93_sum",
    "TheanoLM.C93_vocabulary_partial",
    "TheanoLM.C93_rejected",
    "TheanoLM.C93_name",
    "TheanoLM.C93_violated"
   ],
   "note": "The probabilities are proved. Missing: a class without counts and without positive given probabilities is written with zero probabilities, and then the output cannot be read as a vocabulary (ZeroDivisionError); C93_vocabulary_partial says exactly when, C93_violated is a witness. Reading also requires that a word is in one class only. Rounding is not modelled."
  },
  {
   "property": "C94",
   "status": "partial",
   "theorems": [
    "TheanoLM.C94_text",
    "TheanoLM.C94_read",
    "TheanoLM.C94_round_trip",
    "TheanoLM.C94_queries",
    "TheanoLM.C94_prune_partial",
    "TheanoLM.C94_violated",
    "TheanoLM.ngramCount_begin"
   ],
   "note": "Pruning is violated: prune_count uses a variable that does not exist, so that it raises NameError whenever there is something to prune (C94_prune_partial, C94_violated). Numbers are assumed to be read back as they were written."
  },
  {
   "property": "C95",
   "status": "proved",
   "theorems": [
    "TheanoLM.C95_create",
    "TheanoLM.C95_find",
    "TheanoLM.C95_agree"
   ],
   "note": ""
  },
  {
   "property": "C96",
   "status": "proved",
   "theorems": [
    "TheanoLM.C96_independent",
    "TheanoLM.C96_sum",
    "TheanoLM.C96_shortlist",
    "TheanoLM.C96_excluded",
    "TheanoLM.C96_finite",
    "TheanoLM.C96_sentences",
    "TheanoLM.C96_sentences_shortlist"
   ],
   "note": "Stated for networks without bidirectional layers where a prefix decides the probabilities; for real numbers, without rounding. The unigram and class membership probabilities are nonnegative, which reading a class file does not check. With --exclude-unk there are at least two classes. For the sums the output layer is softmax, or hierarchical softmax with level sizes that multiply to the number of classes (see C56)."
  },
  {
   "property": "C97",
   "status": "partial",
   "theorems": [
    "TheanoLM.C97_tokens",
    "TheanoLM.C97_initial",
    "TheanoLM.C97_step",
    "TheanoLM.C97_class",
    "TheanoLM.C97_word",
    "TheanoLM.C97_partial",
    "TheanoLM.C97_offset_partial",
    "TheanoLM.C97_violated"
   ],
   "note": "C97_tokens holds for all layers; the agreement is stated for networks (with a softmax or hierarchical softmax output) without bidirectional and gated linear unit layers (with those decoding is an error, C139), words with positive membership probability (and a positive share of <unk>), and no <unk> score. Violated by the code when </s> shares its class with another word (C97_violated): the decoder adds the membership probability of the preceding word instead of the predicted one (see C33). C97_partial is for the case that <s> and </s> have the same membership probability; C97_offset_partial gives the difference of the scores in all cases. Real numbers, without rounding."
  },
  {
   "property": "C98",
   "status": "proved",
   "theorems": [
    "TheanoLM.C98",
    "TheanoLM.C98_succeeds"
   ],
   "note": "The random outcomes are parameters: the theorem says which distribution they are drawn from. The class membership probabilities are nonnegative, which reading a class file does not check. Real numbers, without rounding."
  },
  {
   "property": "C99",
   "status": "partial",
   "theorems": [
    "TheanoLM.C99_partial",
    "TheanoLM.C99_order_partial",
    "TheanoLM.C99_best_partial",
    "TheanoLM.C99_unique"
   ],
   "note": "Missing: what is missing from C97 (<unk> scores, words of zero probability). Networks with bidirectional and gated linear unit layers cannot be used in decoding (C139). When <s> and </s> have different membership probabilities, the scores of all hypotheses contain the same additional number (C97_violated); the order of the hypotheses is still right (C99_order_partial, C99_best_partial). Real numbers, without rounding."
  },
  {
   "property": "C100",
   "status": "partial",
   "theorems": [
    "TheanoLM.C100_contains_partial",
    "TheanoLM.C100_contains",
    "TheanoLM.C100_sound_partial",
    "TheanoLM.C100_violated"
   ],
   "note": "Violated by the code (C100_violated): the link for a token that was recombined gets the acoustic score and transitions of the last link of the token that was kept. Soundness is proved for lattices without null links where links with the same word into the same node have the same acoustic score and transitions. The hypotheses that decoding returned are always contained; only the scores of null links after the last word are missing (as in C73), C100_contains is for null links without scores."
  },
  {
   "property": "C101",
   "status": "partial",
   "theorems": [
    "TheanoLM.C101_complete_partial",
    "TheanoLM.C101_exact_partial",
    "TheanoLM.C101_violated"
   ],
   "note": "Violated by the code (C101_violated): hypotheses that are recombined after the end of the sentence are not in the rescored lattice, because the end of sentence is not a word link. Proved for all final nodes where no such recombination happened, in lattices without null links; the lattice then contains exactly the word sequences of the original lattice."
  },
  {
   "property": "C102",
   "status": "proved",
   "theorems": [
    "TheanoLM.C102_best",
    "TheanoLM.C102_network",
    "TheanoLM.C102_condition"
   ],
   "note": "C102_condition shows that the condition on the network cannot be dropped. The conditions on class membership probabilities are those of C33."
  },
  {
   "property": "C103",
   "status": "partial",
   "theorems": [
    "TheanoLM.C103_added_partial",
    "TheanoLM.C103_scores_partial",
    "TheanoLM.C103_exact_partial",
    "TheanoLM.C103_network_partial",
    "TheanoLM.C103_violated",
    "TheanoLM.C103_condition"
   ],
   "note": "Missing: lattices with null links, and links with the same word to the same node that have different language model scores, for which the claim does not hold (C103_violated). C103_condition shows that the condition on the network cannot be dropped. The conditions on class membership probabilities are those of C33."
  },
  {
   "property": "C104",
   "status": "partial",
   "theorems": [
    "TheanoLM.C104_same",
    "TheanoLM.C104_answer_partial",
    "TheanoLM.C104_failure_partial",
    "TheanoLM.C104_reflexive",
    "TheanoLM.C104_other",
    "TheanoLM.C104_violated",
    "TheanoLM.C104_not_symmetric"
   ],
   "note": "Violated by the code: comparing classes that have equally many words, some of them different, can raise a KeyError (C104_violated), and the answer depends on the order of the classes (C104_not_symmetric). Probabilities are rational numbers."
  },
  {
   "property": "C105",
   "status": "proved",
   "theorems": [
    "TheanoLM.C105_conv2d",
    "TheanoLM.C105_sizes",
    "TheanoLM.C105_unknown",
    "TheanoLM.C105_small",
    "TheanoLM.C105_conv1d",
    "TheanoLM.C105_layer"
   ],
   "note": "The convolution of Theano itself (tensor.nnet.conv2d) is modelled from its documentation."
  },
  {
   "property": "C106",
   "status": "partial",
   "theorems": [
    "TheanoLM.C106",
    "TheanoLM.C106_saves_partial",
    "TheanoLM.C106_violated_adam",
    "TheanoLM.C106_missing",
    "TheanoLM.C106_source",
    "TheanoLM.C106_violated_device"
   ],
   "note": "Violated by the code: with Adam the state cannot be saved directly to a file that already has a state (C106_violated_adam), so training without validation data fails after the second epoch; a device whose name ends like the name of an optimizer variable makes the saved state ambiguous (C106_violated_device), so such names are excluded. The part of a sentence that has been read but not yet used is not part of the state: restoring keeps it as it is. HDF5 files are modelled as their groups."
  },
  {
   "property": "C107",
   "status": "partial",
   "theorems": [
    "TheanoLM.C107_partial",
    "TheanoLM.C107_shuffling_partial",
    "TheanoLM.C107_passes_partial",
    "TheanoLM.C107_violated_passes",
    "TheanoLM.C107_violated_stopper"
   ],
   "note": "Proved with validation, for all data iterators whose restored position gives the same mini-batches, and for the shuffling iterator when the model was not saved in the middle of a line and the random generator of the new process gives the same orders. Violated by the code without validation: the model is saved before the epoch number is increased, so the new process makes one epoch too many (C107_violated_passes); then the updates are those of a process with one more epoch (C107_passes_partial). Violated when the stopping criterion counts decreases of the learning rate (C107_violated_stopper), so for other criteria than the maximum number of epochs the learning rate has not been decreased before the model was saved. Missing also: a process whose epoch the stopping criterion ends at the update where the model is saved."
  },
  {
   "property": "C108",
   "status": "partial",
   "theorems": [
    "TheanoLM.C108_likelihood",
    "TheanoLM.C108_partial",
    "TheanoLM.C108_created",
    "TheanoLM.C108_violated"
   ],
   "note": "C108_likelihood: at every point of the optimization, the log likelihood that is reported is, up to a number that depends only on the text, the logarithm of the greatest probability that a class bigram model with the current classes can give to the training text. C108_partial: the output of wctool, when read as a vocabulary, allows at least the probability of the initial classes and of any single move that the optimizer can evaluate. Violated by the code for moves that cannot be evaluated, which also happens when all the classes occur in the text (C108_violated: text 'a b a c', two classes, both implementations). Missing: vocabulary files that list <s> or </s>; when wctool creates the initial classes, the hypotheses hold (C108_created)."
  },
  {
   "property": "C109",
   "status": "proved",
   "theorems": [
    "TheanoLM.C109_outputs",
    "TheanoLM.C109_time",
    "TheanoLM.C109_recurrent",
    "TheanoLM.C109_probs",
    "TheanoLM.C109_score",
    "TheanoLM.C109_score_time",
    "TheanoLM.C109_perplexity",
    "TheanoLM.C109_necessary"
   ],
   "note": "C109_outputs and C109_time: bounds of the outputs of the layers; C109_recurrent: outputs of recurrent layers are between -1 and 1; C109_probs: least class probability; C109_score, C109_score_time: least finite score of a word with the score command; C109_perplexity: greatest perplexity of any text. C109_necessary: with ReLU activation in an LSTM layer, the probability of a class can become as small as one likes. Real arithmetic."
  },
  {
   "property": "C110",
   "status": "proved",
   "theorems": [
    "TheanoLM.C110_perplexity",
    "TheanoLM.C110_order",
    "TheanoLM.C110_probability",
    "TheanoLM.C110_network"
   ],
   "note": "C110_perplexity: the result of computing the perplexity of text files (or the error) is the same with every mini-batch size, and it is the perplexity of the scores of the sequences scored alone; C110_order: the order of the files is irrelevant; C110_probability: networks do not give positive log probabilities; C110_network: networks without bidirectional layers meet the assumptions. Without rounding; the membership and unigram probabilities of the vocabulary are assumed not to be negative. With bidirectional layers the property does not hold since C59 does not hold."
  },
  {
   "property": "C111",
   "status": "proved",
   "theorems": [
    "TheanoLM.C111_report",
    "TheanoLM.C111_network",
    "TheanoLM.C111_zero_probability"
   ],
   "note": "C111_report: whenever the validation perplexity of a text can be computed, the last line of the report of the score command gives the same number, with every mini-batch size used in validation; C111_network: networks without bidirectional layers meet the assumptions; C111_zero_probability: the converse does not hold, since the report leaves out words to which the network gives zero probability, while validation fails. Without rounding, without a maximum sequence length in validation and without subword marking in the score command; `<unk>` is assumed to have a nonzero class membership probability."
  },
  {
   "property": "C112",
   "status": "proved",
   "theorems": [
    "TheanoLM.C112_perplexity",
    "TheanoLM.C112_order",
    "TheanoLM.C112_unknown"
   ],
   "note": "C112_perplexity: for a training mini-batch and a network without dropout layers, the validation perplexity is the exponential of the cross-entropy cost minus a number that does not depend on the network; C112_order: hence a smaller cost means a smaller perplexity; C112_unknown: without --exclude-unk, training counts `<unk>` but validation does not when unigram probabilities are known. Gradients are not modelled, no rounding."
  },
  {
   "property": "C113",
   "status": "partial",
   "theorems": [
    "TheanoLM.C113_mean",
    "TheanoLM.C113_rate",
    "TheanoLM.C113_passRate",
    "TheanoLM.C113_violated"
   ],
   "note": "C113_mean: for a pass rate between zero and one, the mean of the output of every unit is its input and the variance is input^2 (1-p)/p; C113_rate, C113_passRate: the scale is the inverse of the pass rate, which is positive for every given rate and at most one if the rate is not negative. The statement is false for negative rates (C113_violated), which are not rejected: nothing is dropped and the output is input/p. The random numbers are uniform in [0, 1) (Lebesgue integral); no rounding."
  },
  {
   "property": "C114",
   "status": "partial",
   "theorems": [
    "TheanoLM.C114_direction",
    "TheanoLM.C114_decrease",
    "TheanoLM.C114_violated"
   ],
   "note": "C114_direction, C114_decrease: every update of sgd, adagrad, adadelta and rmsprop-sgd, and the first update of every method. For the later updates of nesterov, adam and rmsprop-nesterov the statement is false (C114_violated): momentum can increase the cost however small the learning rate is, which is inherent to the methods. The gradient computed by Theano is taken to be the Frechet derivative of the cost; no rounding."
  },
  {
   "property": "C115",
   "status": "proved",
   "theorems": [
    "TheanoLM.C115_total",
    "TheanoLM.C115_network"
   ],
   "note": "C115_total: whenever both outputs of the score command finish for a text with words, the sum of the written utterance scores (times the logarithm of the base) determines the perplexity in the other report; C115_network: networks without bidirectional layers meet the assumptions. Without rounding and without subword marking in the perplexity report; `<unk>` is assumed to have a nonzero class membership probability."
  },
  {
   "property": "C116",
   "status": "partial",
   "theorems": [
    "TheanoLM.C116_partial",
    "TheanoLM.C116_violated_exclude",
    "TheanoLM.C116_violated"
   ],
   "note": "C116_partial: without the option to exclude `<unk>`, the perplexity that the train command prints in the end is the one that the score command (with a shortlist, as in training) reports for the validation text, over real numbers. Missing: a limit on the length of validation sequences, which only training has; bidirectional layers (they violate C59); architectures with lists of more than ten elements and names with slashes (C81, C106). C116_violated_exclude: with the option to exclude `<unk>`, the score command reports a strictly smaller perplexity; C116_violated: a concrete training run where this happens."
  },
  {
   "property": "C117",
   "status": "partial",
   "theorems": [
    "TheanoLM.C117_optimum",
    "TheanoLM.C117_partial",
    "TheanoLM.C117_uniform",
    "TheanoLM.C117_error",
    "TheanoLM.C117_violated",
    "TheanoLM.C117_violated_replacement"
   ],
   "note": "Over real numbers, for the words that can follow one context, when the activations of the output layer can be chosen freely. C117_optimum: the expected noise-contrastive cost has a single minimum, and its value for every class. C117_partial: if the expected number of occurrences of a class in the sample is the sample size times its probability, and epsilon is zero or the noise is uniform, the normalized outputs at the minimum are exactly the true distribution. C117_uniform: uniform noise with any epsilon. C117_error: with another noise distribution the error is at most the factor 1 + epsilon / b, b the smallest noise probability. Violated: C117_violated (non-uniform noise, any epsilon > 0), C117_violated_replacement (unigram noise is sampled without replacement, epsilon = 0). Missing: optimization in terms of the parameters of a network, and rounding."
  },
  {
   "property": "C118",
   "status": "partial",
   "theorems": [
    "TheanoLM.C118_nesterov",
    "TheanoLM.C118_zero_momentum",
    "TheanoLM.C118_violated_rmsprop"
   ],
   "note": "C118_nesterov: the parameters are the look-ahead points of the published method, also with changing learning rates and when the norm of the update is limited. C118_zero_momentum: Nesterov momentum zero is stochastic gradient descent. C118_violated_rmsprop: RMSProp with momentum zero is not RMSProp without momentum, since the mean of the squared gradients is not updated."
  },
  {
   "property": "C119",
   "status": "proved",
   "theorems": [
    "TheanoLM.C119_adagrad",
    "TheanoLM.C119_rmsprop",
    "TheanoLM.C119_rmsprop_nesterov",
    "TheanoLM.C119_adam"
   ],
   "note": "Over real numbers. AdaGrad: lr; RMSProp: lr / sqrt(1 - gamma); RMSProp with momentum: lr / (sqrt(1 - gamma) (1 - momentum)); Adam: lr / sqrt((1 - gamma_ms) (1 - gamma_m^2 / gamma_ms)), if gamma_m^2 < gamma_ms as in the default options. SGD and Nesterov momentum are bounded only by the norm limit (C47); AdaDelta has no such bound."
  },
  {
   "property": "C120",
   "status": "proved",
   "theorems": [
    "TheanoLM.C120_mean",
    "TheanoLM.C120_order"
   ],
   "note": "For the cross-entropy cost and networks without dropout and bidirectional layers (bidirectional layers break it: C59_violated). C120_mean: there is a cost of a sequence alone such that the cost of every mini-batch is the mean of the costs of its sequences weighted by their numbers of words, plus the penalties; the number of words is the sum. C120_order: the same sequences in another order, in a longer mini-batch, with other words in the masked positions, give the same cost. Over real numbers; no rounding."
  },
  {
   "property": "C121",
   "status": "proved",
   "theorems": [
    "TheanoLM.C121_network",
    "TheanoLM.C121_scores"
   ],
   "note": "C121_network: for any numbers and any activation functions, in training and in evaluation, if two networks have the same layers where a layer is computed from, and both can be evaluated, the outputs of the layer are the same in every position of the mini-batch. C121_scores: for networks created from descriptions and with any parameters, the predicted log probabilities are the same. Over real numbers in C121_scores; no rounding."
  },
  {
   "property": "C122",
   "status": "proved",
   "theorems": [
    "TheanoLM.C122_entropy",
    "TheanoLM.C122_shortlist",
    "TheanoLM.C122_distinct",
    "TheanoLM.C122_finite",
    "TheanoLM.C122_finite_shortlist"
   ],
   "note": "For networks created from any description, with any parameters, without bidirectional layers, whose output layer is a softmax or a hierarchical softmax that is normalized. C122_entropy and C122_shortlist assume that all the words of the text are scored (none is excluded or has a class membership probability of zero). C122_distinct turns the bound into n^(n/w) for n different sentences with w words. C122_finite and C122_finite_shortlist show that there is such a perplexity for any text. Sequences are not cut (no maximum length). Over real numbers; no rounding."
  },
  {
   "property": "C123",
   "status": "proved",
   "theorems": [
    "TheanoLM.C123_equivalent",
    "TheanoLM.C123_best",
    "TheanoLM.C123_renumbered"
   ],
   "note": "C123_equivalent: for any network and vocabulary, with the options that do not prune hypotheses and the default interpolation (C32). C123_renumbered: renumbering nodes and reordering nodes and links gives an equivalent lattice. Hypotheses that have exactly the same score may be listed in a different order."
  },
  {
   "property": "C124",
   "status": "proved",
   "theorems": [
    "TheanoLM.C124_succeeds",
    "TheanoLM.C124_within",
    "TheanoLM.C124_optimal",
    "TheanoLM.C124_wide",
    "TheanoLM.C124_not_monotone",
    "TheanoLM.C66_sorted_times"
   ],
   "note": "For the default interpolation, and for recombination that makes no difference to the network; the only limit is the beam. C124_within: the first hypothesis is at least as good as every complete path that stays within the beam. C124_optimal: if a best path stays within the beam, the score of the first hypothesis is the best one. C124_wide: nothing is lost if the beam is wider than all the differences. C124_not_monotone: widening the beam may make the result worse."
  },
  {
   "property": "C125",
   "status": "proved",
   "theorems": [
    "TheanoLM.C125_best",
    "TheanoLM.C125_model",
    "TheanoLM.C125_interpolation",
    "TheanoLM.C125_condition"
   ],
   "note": "C125_best: with the scores that the decoder adds; the scores of all other hypotheses are covered too. C125_model: with the language model scores, when classes have no effect. C125_interpolation: the interpolation of probfunctions is the logarithm of the weighted sum of the probabilities. C125_condition: a lattice where two paths with the same words have different language model scores, the best one of which is lost."
  },
  {
   "property": "C126",
   "status": "proved",
   "theorems": [
    "TheanoLM.C126_normal_classes",
    "TheanoLM.C126_normal_words"
   ],
   "note": "C126_normal_classes: the classes that are not counted are one-word classes whose word starts with '<', and the last counted class is not. C126_normal_words: a shortlist word that does not start with '<' is in a normal class."
  },
  {
   "property": "C127",
   "status": "proved",
   "theorems": [
    "TheanoLM.C127_best",
    "TheanoLM.C127_same",
    "TheanoLM.C127_condition"
   ],
   "note": "For the default interpolation, recombination that makes no difference to the network, and a limit on the number of hypotheses as the only limit. The number of word sequences is counted after recombination. C127_same: the score of the result is the same with and without the limit. C127_condition: with a smaller limit the best path may be lost."
  },
  {
   "property": "C128",
   "status": "proved",
   "theorems": [
    "TheanoLM.C128",
    "TheanoLM.C128_sentence",
    "TheanoLM.C128_scored",
    "TheanoLM.C128_draws"
   ],
   "note": "For networks that can be created from a description and used for generating text (no bidirectional or gated linear unit layers, C60), whose output probabilities sum to one, and independent uniform random numbers that are used for drawing in any way that gives each outcome its probability. C128_draws: inverting the cumulative distribution function is such a way. Floating-point rounding and the random number generators of the libraries are not modelled."
  },
  {
   "property": "C129",
   "status": "proved",
   "theorems": [
    "TheanoLM.C129",
    "TheanoLM.C129_recurrent"
   ],
   "note": "For networks with an ordinary softmax output layer that are created with the class probabilities of the vocabulary, as the train command does. The bound is in terms of the actual weights of the output layer, because the scale of the random numbers is not modelled (and the scale that the softmax layer asks for is ignored by random_matrix when the matrix is square)."
  },
  {
   "property": "C130",
   "status": "proved",
   "theorems": [
    "TheanoLM.C130",
    "TheanoLM.C130_sampler"
   ],
   "note": "For networks whose output probabilities sum to one, without bidirectional layers (and gated linear unit layers when generating text), with tanh activation in LSTM layers, a positive class membership probability of the end of sentence, without --exclude-unk and without distributing the probability of <unk>. Real numbers, without rounding."
  },
  {
   "property": "C131",
   "status": "partial",
   "theorems": [
    "TheanoLM.C131_partial",
    "TheanoLM.C131_violated"
   ],
   "note": "C131_partial: for log-linear interpolation without recombined hypotheses, if the weight is one half or the original lattice has no language model scores; the scale of the rescored lattice is then the weight times the scale. Missing: other weights. C131_violated: with the default weight 1.0 the scores are not those of the decoder and the best path is another one."
  },
  {
   "property": "C132",
   "status": "partial",
   "theorems": [
    "TheanoLM.C132_partial",
    "TheanoLM.C132_violated"
   ],
   "note": "C132_partial: for the real number zero as the numerical stability term, one or more noise classes that are sampled independently (as uniform and log-uniform noise are), and positive probabilities. Missing: a positive numerical stability term, for which the claim does not hold (C132_violated: the result is 2/3 + epsilon/3 instead of 2/3), and noise that is sampled without replacement (unigram noise)."
  },
  {
   "property": "C133",
   "status": "proved",
   "theorems": [
    "TheanoLM.C133"
   ],
   "note": "Two SLF files over the real numbers with the real logarithm. The base may be declared anywhere in the header before or on the line that completes the numbers of nodes and links; zero means probabilities and no declaration natural logarithms. Scores have to stand for positive probabilities (a probability of zero has the logarithm -inf, which is not a real number)."
  },
  {
   "property": "C134",
   "status": "proved",
   "theorems": [
    "TheanoLM.C134"
   ],
   "note": "In real numbers (the program rounds the matrices to single precision). Assumes that the first matrix that numpy.linalg.svd returns has orthonormal columns. Covers all weights that the program creates with a square shape, however they are divided to devices."
  },
  {
   "property": "C135",
   "status": "proved",
   "theorems": [
    "TheanoLM.C135_succeeds_iff",
    "TheanoLM.C135_fails",
    "TheanoLM.C135_within",
    "TheanoLM.C135_optimal",
    "TheanoLM.C135_condition"
   ],
   "note": "Generalises C124 (beam only) and C127 (token limit only) to all combinations of the decoder's pruning options, including prune_extra_limit with its lower bounds. Assumes well-formed acyclic lattices in which every node but the initial one has an incoming link; the optimality parts assume log-linear interpolation, a network whose state depends on no more words than the recombination order, and time stamps that links do not go against."
  },
  {
   "property": "C136",
   "status": "proved",
   "theorems": [
    "TheanoLM.C136_accepted_iff",
    "TheanoLM.C136_contents",
    "TheanoLM.C136_normalized",
    "TheanoLM.C136_missing",
    "TheanoLM.C136_no_probability"
   ],
   "note": "Assumes that the file has at least as many words as class IDs (otherwise Python may raise IndexError while it looks for special classes) and that no class has probabilities that sum to zero (NumPy would give nan where the model raises). C136_no_probability is a weakness of the checks: a file with fewer probabilities than class IDs can be accepted, and asking the probability of a word without one raises KeyError."
  },
  {
   "property": "C137",
   "status": "proved",
   "theorems": [
    "TheanoLM.C137_nce",
    "TheanoLM.C137_blackout",
    "TheanoLM.C137_local",
    "TheanoLM.C137_target_scores",
    "TheanoLM.C137_noise_scores",
    "TheanoLM.C137_index_error"
   ],
   "note": "The tensor programs as they are written (indexing with tensors, new axes, broadcasting, reshaping, reductions) refine the formulas for one position that C78, C107 and C132 are about. C137_local is stated for noise-contrastive estimation; for BlackOut it follows from C137_blackout in the same way. One device; rounding and overflow are not modelled."
  },
  {
   "property": "C138",
   "status": "proved",
   "theorems": [
    "TheanoLM.C138_trainable_iff",
    "TheanoLM.C138_message",
    "TheanoLM.C138_silent"
   ],
   "note": "Theano's walk over the expression of the cost is modelled on the level of layers: the expression of the output of a layer is assumed to contain all the parameters of the layer. That the command ends in an UnboundLocalError after it has printed its message is part of C138_message."
  },
  {
   "property": "C139",
   "status": "proved",
   "theorems": [
    "TheanoLM.C139_decode_iff",
    "TheanoLM.C139_generate"
   ],
   "note": "The program raises the error already when the network is constructed for processing one time step at a time; in the model the error is raised when the first time step is evaluated, so that C139_generate requires that at least one time step is evaluated. C139_decode_iff shows that the layers that C97 and C99 exclude are exactly those that cannot be used in decoding."
  },
  {
   "property": "C140",
   "status": "proved",
   "theorems": [
    "TheanoLM.C140_lstm300",
    "TheanoLM.C140_lstm1500",
    "TheanoLM.C140_model",
    "TheanoLM.C140_decode"
   ],
   "note": "The contents of the two architecture files are part of the model (copied line by line). It is assumed that int() and float() read the numerals in them, and that no default device is given; with a default device the softmax layer cannot be evaluated (C80)."
  },
  {
   "property": "C141",
   "status": "proved",
   "theorems": [
    "TheanoLM.C141_layers",
    "TheanoLM.C141_trained",
    "TheanoLM.C141_file",
    "TheanoLM.C141_lstm300",
    "TheanoLM.C141_lstm1500"
   ],
   "note": "The reported number is the sum of the sizes of the arrays, where the code adds each size to a counter when the array is created. As in C80, the prior probabilities, if they are used, have one value for each class and there is no softmax layer except the output."
  },
  {
   "property": "C142",
   "status": "partial",
   "theorems": [
    "TheanoLM.C142_value",
    "TheanoLM.C142_array",
    "TheanoLM.C142_list_partial",
    "TheanoLM.C142_bias",
    "TheanoLM.C142_violated_arrays",
    "TheanoLM.C142_violated_size"
   ],
   "note": "The documentation allows a list of arrays, but the function fails with every list that has an array in it (except an array of one element), because it tests the type of the list instead of that of the element. An array of a wrong size is accepted. The layers only use lists of numbers, for which the claim holds (C142_list_partial, C142_bias). Only one-dimensional shapes are modelled."
  },
  {
   "property": "C143",
   "status": "partial",
   "theorems": [
    "TheanoLM.C143_opened",
    "TheanoLM.C143_word_counts",
    "TheanoLM.C143_training_partial",
    "TheanoLM.C143_violated_training"
   ],
   "note": "The claim does not hold for training data: for every compressed file that can be read, reading the sentences for training fails (C143_violated_training). It is proved for files that are not compressed, and for counting words. The contract of UTF-8 and gzip that is used is TextCodec.Contract: the byte 10 is only used for newlines, a continuation byte cannot follow an ASCII character, and compressed data begins with the bytes 31 and 139."
  },
  {
   "property": "C144",
   "status": "partial",
   "theorems": [
    "TheanoLM.C144_int",
    "TheanoLM.C144_float_partial",
    "TheanoLM.C144_other",
    "TheanoLM.C144_violated_size",
    "TheanoLM.C144_violated_bool"
   ],
   "note": "Holds for integers, and for floating point numbers when the size is a tuple. An integer as the size raises TypeError for floating point numbers, and the test values of a boolean variable are always False. The test values are used only for debugging."
  },
  {
   "property": "C145",
   "status": "partial",
   "theorems": [
    "TheanoLM.C145_partial",
    "TheanoLM.C145_converse_partial",
    "TheanoLM.C145_violated"
   ],
   "note": "Holds in Kaldi format, and in SLF format when every lattice has an utterance ID. SLF lattices without an utterance ID are numbered separately in each job, so that the output of the jobs differs from the output of one job."
  },
  {
   "property": "C146",
   "status": "proved",
   "theorems": [
    "TheanoLM.C146_mean",
    "TheanoLM.C146_between",
    "TheanoLM.C146_network",
    "TheanoLM.C146_nothing",
    "TheanoLM.C146_zero"
   ],
   "note": "For scorers that satisfy the assumptions of C110, which networks without bidirectional layers do (C146_network). Real arithmetic, no rounding."
  },
  {
   "property": "C147",
   "status": "proved",
   "theorems": [
    "TheanoLM.C147_two",
    "TheanoLM.C147_fails",
    "TheanoLM.C147_parts",
    "TheanoLM.C147_necessary"
   ],
   "note": "No assumptions about the network. The condition that the parts consist of complete lines is necessary (C147_necessary)."
  },
  {
   "property": "C148",
   "status": "partial",
   "theorems": [
    "TheanoLM.C148_counts",
    "TheanoLM.C148_probs",
    "TheanoLM.C148_sum",
    "TheanoLM.C148_markers",
    "TheanoLM.C148_words",
    "TheanoLM.C148_vocabulary_partial",
    "TheanoLM.C148_violated"
   ],
   "note": "The counts and the probabilities are proved for all texts. The word IDs of a vocabulary created from the text are proved independent of the order of lines only when no two words are equally frequent; otherwise the code gives different IDs (C148_violated), but the words and their unigram probabilities are the same (C148_words). The markers are counted although the documentation says they are not (C148_markers)."
  },
  {
   "property": "C149",
   "status": "partial",
   "theorems": [
    "TheanoLM.C149_statistics",
    "TheanoLM.C149_file",
    "TheanoLM.C149_created_partial",
    "TheanoLM.C149_violated"
   ],
   "note": "Proved for all texts when a vocabulary file is given. Without a vocabulary file proved when no two words are equally frequent (C149_created_partial); otherwise the output of wctool depends on the order of the text (C149_violated). The counts are integers in the model, so that overflow is not considered."
  },
  {
   "property": "C150",
   "status": "proved",
   "theorems": [
    "TheanoLM.C150_lines",
    "TheanoLM.C150_network",
    "TheanoLM.C150_necessary"
   ],
   "note": "For networks that score a sequence independently of the rest of the mini-batch, in particular networks without bidirectional layers (C150_network); with bidirectional layers the mini-batches affect the scores (C59). Exact arithmetic. The condition that the files consist of complete lines is necessary (C150_necessary)."
  }
 ]
}