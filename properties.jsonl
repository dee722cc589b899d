{"id": "C01", "title": "Utterances are correctly delimited", "statement": "Converting a text line to an utterance never fails; a line with no words gives the empty utterance, and any other line gives a sequence that starts with <s>, ends with </s>, has at least two elements, and between the (possibly added) delimiters contains exactly the words of the line in order. Re-converting the space-joined result gives the same utterance.", "quantifier": "every line of text (every list of words, every arrangement of whitespace)", "why_tests_cant": "The line is arbitrary text; delimiters may already be present on either side, alone, or repeated, and only a proof covers all combinations.", "anchors": ["theanolm/parsing/functions.py:utterance_from_line"]}
{"id": "C02", "title": "Sentence starts are exactly the line starts", "statement": "The pointers returned for a memory-mapped training file are, in increasing order, position 0 and every position that directly follows a newline character and lies inside the file. Reading a line from each pointer in order yields the whole file with nothing skipped or read twice.", "quantifier": "every file content, including empty lines, a missing final newline, and only newlines", "why_tests_cant": "File contents are unbounded; boundary cases (final newline, consecutive newlines) combine without limit.", "anchors": ["theanolm/parsing/functions.py:find_sentence_starts"]}
{"id": "C03", "title": "One pass over the data delivers every long-enough sequence once and in order", "statement": "Iterating a linear batch iterator until it stops returns, when the batches are concatenated, exactly the sequences obtained by cutting each utterance of each file (in file order) to pieces of at most the maximum length and discarding pieces shorter than two words, each labelled with the number of its file. Every batch but the last has exactly the requested number of sequences and no batch is empty.", "quantifier": "all file sets, utterances, batch sizes >= 1 and maximum lengths (or none)", "why_tests_cant": "The result depends on the interaction of buffering, skipping and file switching over an unbounded input.", "anchors": ["theanolm/parsing/batchiterator.py:BatchIterator.__next__", "theanolm/parsing/batchiterator.py:BatchIterator._read_sequence", "theanolm/parsing/linearbatchiterator.py:LinearBatchIterator._readline"]}
{"id": "C04", "title": "No word of an utterance is lost by sequence splitting", "statement": "Every word of every non-empty utterance is contained in some sequence returned during a pass over the data.", "quantifier": "all utterances and all maximum sequence lengths", "why_tests_cant": "Loss happens only for particular residues of the utterance length modulo the maximum length, which a sampled test misses.", "anchors": ["theanolm/parsing/batchiterator.py:BatchIterator.__next__", "theanolm/parsing/batchiterator.py:BatchIterator._read_sequence"]}
{"id": "C05", "title": "The length of an iterator is the number of batches it will return", "statement": "For an iterator at the start of a pass, len() equals the number of batches returned during the next complete pass, and calling it does not change what the pass returns.", "quantifier": "all data sets, batch sizes and maximum lengths", "why_tests_cant": "Requires comparing two different traversals (counting and batching) for every input.", "anchors": ["theanolm/parsing/batchiterator.py:BatchIterator.__len__"]}
{"id": "C06", "title": "Every pass over the data is the same", "statement": "After a linear iterator raises StopIteration, the next pass returns exactly the same batches again, for any number of passes.", "quantifier": "all data sets and any number of passes", "why_tests_cant": "Leftover state (buffer, end-of-file flag, file position) could leak between passes only after particular histories.", "anchors": ["theanolm/parsing/batchiterator.py:BatchIterator.__next__", "theanolm/parsing/linearbatchiterator.py:LinearBatchIterator._reset"]}
{"id": "C07", "title": "Mini-batch matrices represent the sequences exactly", "statement": "In the matrices prepared from a batch, the number of time steps is the length of the longest sequence, the mask is one exactly at the positions inside each sequence, the word ID at such a position is the ID of that word, and every position outside holds the <unk> ID; stripping masked positions gives the sequences back.", "quantifier": "all batches of sequences", "why_tests_cant": "Padding and transposition errors show up only for particular combinations of lengths.", "anchors": ["theanolm/parsing/batchiterator.py:BatchIterator._prepare_batch", "theanolm/parsing/scoringbatchiterator.py:ScoringBatchIterator._prepare_batch"]}
{"id": "C08", "title": "Word IDs in training batches are always valid network input", "statement": "When out-of-shortlist words are mapped to <unk>, every word ID in a prepared batch is the ID of a shortlist word, so that looking up its class cannot fail; a word outside the vocabulary is represented by <unk>.", "quantifier": "all vocabularies, texts and batches", "why_tests_cant": "An index error needs a particular combination of shortlist and text.", "anchors": ["theanolm/parsing/batchiterator.py:BatchIterator._prepare_batch", "theanolm/vocabulary/vocabulary.py:Vocabulary.words_to_ids", "theanolm/vocabulary/vocabulary.py:Vocabulary.get_class_memberships"]}
{"id": "C09", "title": "Restoring a training position resumes the pass exactly", "statement": "Saving the state of a training iterator between two batches and restoring it later makes the iterator return exactly the batches that followed the save point.", "quantifier": "all data, all save points and all positions the iterator is in when the state is restored", "why_tests_cant": "The hidden buffer and end-of-file flag matter only at particular save/restore points.", "anchors": ["theanolm/parsing/shufflingbatchiterator.py:ShufflingBatchIterator.get_state", "theanolm/parsing/shufflingbatchiterator.py:ShufflingBatchIterator.set_state"]}
{"id": "C10", "title": "A shuffled epoch samples each file as requested", "statement": "For each training file an epoch visits round(fraction * lines) of its lines; when the fraction is at most one no line is visited twice, and when it is exactly one every line is visited exactly once, whatever the random numbers are.", "quantifier": "all files, fractions and all outcomes of the random generator", "why_tests_cant": "The guarantee quantifies over every random outcome.", "anchors": ["theanolm/parsing/shufflingbatchiterator.py:ShufflingBatchIterator._reset"]}
{"id": "C11", "title": "Word IDs identify words", "statement": "In every vocabulary that can be constructed, IDs run from 0 to the number of words minus one, converting an ID to a word and back gives the same ID, converting a vocabulary word to an ID and back gives the same word, and two different words never share an ID.", "quantifier": "all vocabulary files in all formats, word count tables and out-of-shortlist word lists", "why_tests_cant": "Duplicates and special tokens can be introduced by several construction paths, in any order.", "anchors": ["theanolm/vocabulary/vocabulary.py:Vocabulary.__init__", "theanolm/vocabulary/vocabulary.py:Vocabulary.from_file", "theanolm/vocabulary/vocabulary.py:Vocabulary.from_word_counts"]}
{"id": "C12", "title": "Special tokens are always in the shortlist", "statement": "Every constructed vocabulary contains <s>, </s> and <unk> in its shortlist, each exactly once, whether or not the input lists them.", "quantifier": "all vocabulary inputs", "why_tests_cant": "Any subset of the special tokens may be given, in any place and class.", "anchors": ["theanolm/vocabulary/vocabulary.py:Vocabulary._add_special_tokens", "theanolm/vocabulary/vocabulary.py:Vocabulary.__init__"]}
{"id": "C13", "title": "Class membership probabilities form a distribution in each class", "statement": "After constructing a vocabulary, and after recomputing the probabilities from any word counts, the membership probabilities of the words of a class are non-negative and sum to one.", "quantifier": "all vocabularies and word counts", "why_tests_cant": "Needs exact reasoning about a normalisation for arbitrary counts, including all-zero classes.", "anchors": ["theanolm/vocabulary/wordclass.py:WordClass.normalize_probs", "theanolm/vocabulary/vocabulary.py:Vocabulary.compute_probs", "theanolm/vocabulary/vocabulary.py:Vocabulary.from_word_counts"]}
{"id": "C14", "title": "Unigram probabilities are relative frequencies that exclude the start-of-sentence token", "statement": "Word unigram probabilities computed from counts are non-negative, sum to one over all words, and are proportional to the counts of the words, with the start-of-sentence token excluded.", "quantifier": "all vocabularies and word counts", "why_tests_cant": "An exact sum over arbitrary counts, and the exclusion holds only for some construction paths.", "anchors": ["theanolm/vocabulary/vocabulary.py:Vocabulary.compute_probs"]}
{"id": "C15", "title": "A saved vocabulary is restored identically", "statement": "Writing a vocabulary to a model file and reading it back gives a vocabulary with the same words and IDs, the same class of every word, the same membership probabilities and the same unigram probabilities.", "quantifier": "all constructible vocabularies", "why_tests_cant": "The round trip re-derives class structure and probabilities from flat arrays for any vocabulary.", "anchors": ["theanolm/vocabulary/vocabulary.py:Vocabulary.get_state", "theanolm/vocabulary/vocabulary.py:Vocabulary.from_state"]}
{"id": "C16", "title": "Frequency-based classes are balanced", "statement": "When a vocabulary is created from word counts with a requested number of classes, every non-special word is placed in exactly one class, class sizes differ by at most one, and the special tokens get classes of their own.", "quantifier": "all word count tables and class counts >= 1", "why_tests_cant": "The claim is about sizes of all classes for an arbitrary number of words.", "anchors": ["theanolm/vocabulary/vocabulary.py:Vocabulary.from_word_counts"]}
{"id": "C17", "title": "Shortlist and out-of-shortlist probabilities form a distribution", "statement": "If a network assigns a distribution over the shortlist, then distributing the probability of <unk> to the out-of-shortlist words with the vocabulary's out-of-shortlist probabilities gives total probability one over all known words other than <unk>, when out-of-shortlist words have been seen.", "quantifier": "all vocabularies with out-of-shortlist words and all shortlist distributions", "why_tests_cant": "A sum over an arbitrary vocabulary.", "anchors": ["theanolm/vocabulary/vocabulary.py:Vocabulary.get_oos_probs", "theanolm/scoring/textscorer.py:TextScorer.score_batch"]}
{"id": "C18", "title": "Vocabulary files with errors are rejected", "statement": "Reading a vocabulary file either fails with an input error, exactly when a line has a wrong number of fields, an unparsable number or a word repeats, or returns a vocabulary that contains exactly the listed words and the special tokens, with two words in the same class exactly when the file says so.", "quantifier": "all vocabulary files in all three formats", "why_tests_cant": "Arbitrary files; every misplaced line must be detected.", "anchors": ["theanolm/vocabulary/vocabulary.py:Vocabulary.from_file"]}
{"id": "C19", "title": "Corpus statistics are exact counts", "statement": "The counted occurrences of each word and word pair equal the number of times they occur in the utterances of all the files, words outside the vocabulary being counted as <unk>; the row and column sums of the pair counts agree with the word counts up to the utterance boundaries.", "quantifier": "all corpora and vocabularies", "why_tests_cant": "Exact counting over an unbounded corpus.", "anchors": ["theanolm/vocabulary/statistics.py:compute_word_counts", "theanolm/vocabulary/statistics.py:BigramStatistics"]}
{"id": "C20", "title": "Incrementally maintained class statistics stay exact", "statement": "After any sequence of moves of words from class to class, the stored class, class-class, class-word and word-class counts are equal to the counts computed from scratch for the current assignment.", "quantifier": "all corpora, all vocabularies and all finite sequences of moves", "why_tests_cant": "An update error may cancel or appear only after several moves; the property quantifies over all histories.", "anchors": ["wordclasses/numpybigramoptimizer.py:NumpyBigramOptimizer._move", "wordclasses/bigramoptimizer.py:BigramOptimizer._compute_class_statistics"]}
{"id": "C21", "title": "The evaluated gain of a move is the exact change of the log likelihood", "statement": "The value computed when evaluating the move of a word to another class is equal (in exact arithmetic) to the class bigram log likelihood after the move minus the log likelihood before it.", "quantifier": "all corpora, assignments, words and target classes for which no class count is zero", "why_tests_cant": "An algebraic identity over arbitrary count tables.", "anchors": ["wordclasses/numpybigramoptimizer.py:NumpyBigramOptimizer._evaluate", "wordclasses/numpybigramoptimizer.py:NumpyBigramOptimizer.log_likelihood"]}
{"id": "C22", "title": "Class optimization terminates at a local optimum", "statement": "In exact arithmetic, each performed move increases the log likelihood, so the class optimization loop ends after finitely many iterations, and when it ends no single evaluated move of a movable word would increase the likelihood.", "quantifier": "all corpora and initial classes", "why_tests_cant": "Termination over an unbounded number of iterations.", "anchors": ["wordclasses/wctool.py:main", "wordclasses/bigramoptimizer.py:BigramOptimizer.move_to_best_class"]}
{"id": "C23", "title": "Class optimization never touches special words and never empties a class", "statement": "Whatever the corpus, no special word, that is, word whose name starts with '<' and ends with '>', ever changes class, no class becomes empty, and words move only to normal classes.", "quantifier": "all corpora, vocabularies and any number of moves", "why_tests_cant": "An invariant over all histories.", "anchors": ["wordclasses/bigramoptimizer.py:BigramOptimizer.move_to_best_class", "wordclasses/bigramoptimizer.py:BigramOptimizer._find_best_move"]}
{"id": "C24", "title": "Lattice nodes are processed in topological order", "statement": "Sorting the nodes of a lattice either reports a cycle or returns an order that starts with the initial node, contains no node twice, lists every node after all nodes that have links to it, and contains every node of an acyclic lattice in which only the initial node has no incoming links. If a node reachable only through a cycle exists the order never contains it.", "quantifier": "all lattices", "why_tests_cant": "All graphs, with any node times.", "anchors": ["theanolm/scoring/lattice.py:Lattice.sorted_nodes"]}
{"id": "C25", "title": "Kaldi lattices survive a write/read round trip", "statement": "Writing a lattice read from the Kaldi format and reading the output back gives the same nodes, links, words and transitions, and the same scores.", "quantifier": "all lattices that the reader accepts", "why_tests_cant": "Arbitrary graphs and node numberings.", "anchors": ["theanolm/scoring/lattice.py:Lattice.write_kaldi", "theanolm/scoring/kaldilattice.py:KaldiLattice"]}
{"id": "C26", "title": "Invalid Kaldi lattices are rejected", "statement": "A Kaldi lattice is accepted only if it has a final node and at least one link, every link line has the right number of fields and no reserved word labels a link; in an accepted lattice there is exactly one final node and every link is registered at both its ends.", "quantifier": "all sequences of input lines", "why_tests_cant": "Arbitrary input text.", "anchors": ["theanolm/scoring/kaldilattice.py:KaldiLattice"]}
{"id": "C27", "title": "Invalid SLF lattices are rejected", "statement": "An accepted SLF lattice has exactly one final node and an initial node, every link connects existing nodes and is registered at both of its ends, and words are on the links only.", "quantifier": "all sequences of SLF lines", "why_tests_cant": "Arbitrary input text and graph structure.", "anchors": ["theanolm/scoring/slflattice.py:SLFLattice"]}
{"id": "C28", "title": "Jobs partition the lattices", "statement": "For every number of jobs, each lattice of the batch is processed by exactly one job, in the original order within the job.", "quantifier": "all lattice lists and numbers of jobs", "why_tests_cant": "All list lengths and job counts.", "anchors": ["theanolm/scoring/latticebatch.py:LatticeBatch"]}
{"id": "C29", "title": "Decoder scores add up along lattice paths", "statement": "Every token that reaches the end of the lattice corresponds to a path of links from the initial to the final node; its word history is <s>, the words of the path, and </s>, and its acoustic and lattice language model log probabilities are the sums over that path.", "quantifier": "all lattices, networks and pruning settings", "why_tests_cant": "All paths through arbitrary lattices after arbitrary recombination and pruning.", "anchors": ["theanolm/scoring/latticedecoder.py:LatticeDecoder.decode", "theanolm/scoring/latticedecoder.py:LatticeDecoder._propagate"]}
{"id": "C30", "title": "Pruning keeps the best token", "statement": "Pruning a node's tokens leaves a non-empty list sorted by descending total log probability, without two tokens whose recent histories are equal, containing the best token, no longer than the token limit, and every token dropped by the beam is worse than every token kept.", "quantifier": "all token lists, beams, token limits and context lengths", "why_tests_cant": "All orderings and ties of scores.", "anchors": ["theanolm/scoring/latticedecoder.py:LatticeDecoder._prune", "theanolm/scoring/latticedecoder.py:LatticeDecoder._sorted_recombined_tokens"]}
{"id": "C31", "title": "Recombination never drops the best token of a context", "statement": "For every token dropped in recombination there is a kept token with the same recent history and at least the same total log probability, and kept together with the recombined tokens no token disappears.", "quantifier": "all token lists and context lengths", "why_tests_cant": "All token lists with ties.", "anchors": ["theanolm/scoring/latticedecoder.py:LatticeDecoder._sorted_recombined_tokens"]}
{"id": "C32", "title": "Decoding without pruning finds the best path", "statement": "With log-linear interpolation, no beam, no token limit and recombination on full history, the best token returned by decoding has a total score that is at least the score of every path through the lattice.", "quantifier": "all acyclic lattices and all network score functions", "why_tests_cant": "Optimality over exponentially many paths.", "anchors": ["theanolm/scoring/latticedecoder.py:LatticeDecoder.decode"]}
{"id": "C33", "title": "The neural network score of a hypothesis is the model's log probability of its words", "statement": "The neural network language model log probability of a decoded hypothesis equals the sum over its words of the log probability of the word's class given the history plus the log probability of the word within its class, with the <unk> penalty applied to unknown words.", "quantifier": "all word sequences and class models", "why_tests_cant": "Compares an incremental computation with its specification for all histories.", "anchors": ["theanolm/scoring/latticedecoder.py:LatticeDecoder._append_word", "theanolm/scoring/latticedecoder.py:LatticeDecoder._handle_unk_logprob"]}
{"id": "C34", "title": "The relative pruning option limits the number of tokens", "statement": "Giving --prune-relative to the decode command reduces the maximum number of tokens (and the beam) of nodes close to the frontier as documented.", "quantifier": "all lattices and option values", "why_tests_cant": "Needs comparing all behaviours with and without the option.", "anchors": ["theanolm/commands/decode.py:decode", "theanolm/scoring/latticedecoder.py:LatticeDecoder.__init__"]}
{"id": "C35", "title": "A rescored lattice contains the decoded hypotheses", "statement": "The lattice built from decoding results contains, for every final token, a path from the initial to the final node labelled with the words of the token, and all its paths are word sequences of the original lattice.", "quantifier": "all lattices and all final token lists", "why_tests_cant": "All token sets sharing prefixes in arbitrary ways.", "anchors": ["theanolm/scoring/rescoredlattice.py:RescoredLattice"]}
{"id": "C36", "title": "Rescored links carry the transition sequence of the path in order", "statement": "The transition IDs attached to a link of the rescored lattice are the transition IDs of the original path segment in path order.", "quantifier": "all lattices, including those with null links", "why_tests_cant": "Order errors occur only with null links that carry transitions.", "anchors": ["theanolm/scoring/rescoredlattice.py:_follow_word_from_node"]}
{"id": "C37", "title": "Merging subwords preserves words and probabilities", "statement": "Merging subword units to words keeps every subword in order, returns one log probability per predicted word, and the sum of the log probabilities over a sentence does not change; a word is unknown (None) exactly when one of its parts is.", "quantifier": "all subword sequences and both marking conventions", "why_tests_cant": "All placements of word-boundary and affix markers.", "anchors": ["theanolm/commands/score.py:_merge_subwords"]}
{"id": "C38", "title": "Perplexity counts exactly the scored words", "statement": "Perplexity is the exponential of minus the sum of the log probabilities of the included words divided by their number; excluded are exactly masked positions, unknown words (if so requested) and words with zero membership probability; a text with no included words is an error and not a number.", "quantifier": "all texts, masks and networks", "why_tests_cant": "All combinations of exclusion flags and batches.", "anchors": ["theanolm/scoring/textscorer.py:TextScorer.compute_perplexity", "theanolm/scoring/textscorer.py:TextScorer.score_batch"]}
{"id": "C39", "title": "Line scoring agrees with batch scoring", "statement": "Scoring a single line gives the sum of the per-word scores batch scoring gives for the same line, for every line including out-of-shortlist words; an empty line has no score.", "quantifier": "all lines and vocabularies", "why_tests_cant": "Only lines with out-of-shortlist words differ.", "anchors": ["theanolm/scoring/textscorer.py:TextScorer.score_line"]}
{"id": "C40", "title": "A periodic event happens the requested number of times per epoch", "statement": "For a frequency not greater than the number of updates per epoch, exactly the requested number of updates in an epoch are scheduled, the last update being one of them, and consecutive events are separated by the rounded-down or rounded-up interval; for a larger frequency every update is scheduled.", "quantifier": "all frequencies and numbers of updates per epoch", "why_tests_cant": "A counting statement over modular arithmetic for all sizes.", "anchors": ["theanolm/training/trainer.py:Trainer._is_scheduled", "wordclasses/functions.py:is_scheduled"]}
{"id": "C41", "title": "Look-ahead scheduling announces exactly the coming events", "statement": "An event is reported to be scheduled within n updates exactly when one of the current and the following n updates is scheduled.", "quantifier": "all update numbers, frequencies not exceeding the updates per epoch, and look-ahead lengths", "why_tests_cant": "Modular arithmetic for all values.", "anchors": ["theanolm/training/trainer.py:Trainer._is_scheduled"]}
{"id": "C42", "title": "Validation happens at every scheduled point", "statement": "When a validation frequency is given, each scheduled validation point of an uninterrupted epoch is validated using the configured number of samples around it.", "quantifier": "all frequencies and epoch lengths", "why_tests_cant": "Fails only for particular ratios of epoch length and frequency.", "anchors": ["theanolm/training/trainer.py:Trainer._validate"]}
{"id": "C43", "title": "The saved model is the best validated model", "statement": "At every moment of training the model in the output file is the one of the last accepted candidate; the candidate's cost is less than 0.999 times the cost of the previous candidate; every cost measured since is at least 0.999 times the candidate's cost.", "quantifier": "all sequences of validation results, learning rate decreases and restarts", "why_tests_cant": "An invariant over all training histories.", "anchors": ["theanolm/training/trainer.py:Trainer._validate", "theanolm/training/trainer.py:Trainer._set_candidate_state", "theanolm/training/trainer.py:Trainer._has_improved"]}
{"id": "C44", "title": "The learning rate is halved once per annealing and never increases", "statement": "The learning rate in use always equals the initial learning rate divided by two to the number of annealings performed, although annealing restores an older state with a possibly larger stored learning rate.", "quantifier": "all training histories", "why_tests_cant": "Depends on the interleaving of saves, restores and decreases.", "anchors": ["theanolm/training/trainer.py:Trainer._decrease_learning_rate", "theanolm/training/trainer.py:Trainer._reset_state"]}
{"id": "C45", "title": "Annealing happens exactly when patience is exceeded", "statement": "The learning rate is decreased exactly when more than the configured number of validations have passed since the candidate state without improvement, and never with negative patience.", "quantifier": "all sequences of validation costs and patience values", "why_tests_cant": "All sequences of costs.", "anchors": ["theanolm/training/trainer.py:Trainer._validate", "theanolm/training/trainer.py:Trainer.validations_since_candidate"]}
{"id": "C46", "title": "Training stops when the stopping condition says so", "statement": "The stoppers start a new epoch exactly according to their rule: at most the maximum number of epochs, after the minimum number of epochs training stops when improvement has ceased (no-improvement rule) or after the maximum number of annealings (annealing rule).", "quantifier": "all training histories and stopper settings", "why_tests_cant": "All histories of epochs and improvement events.", "anchors": ["theanolm/training/stoppers.py:BasicStopper", "theanolm/training/stoppers.py:NoImprovementStopper", "theanolm/training/stoppers.py:AnnealingCountStopper"]}
{"id": "C47", "title": "Parameter updates are bounded by the gradient norm limit", "statement": "After normalization the norm of all updates together is never larger than the configured maximum, its direction is unchanged, and updates smaller than the maximum are changed only by the factor norm/(norm+epsilon).", "quantifier": "all gradients, limits >= 0 and epsilon > 0", "why_tests_cant": "Real arithmetic over arbitrary vectors.", "anchors": ["theanolm/training/basicoptimizer.py:BasicOptimizer._normalize"]}
{"id": "C48", "title": "Optimizers follow their update equations", "statement": "The state variables and parameters after an update are those given by the documented equations of the method; in particular the running means are updated at every step.", "quantifier": "all gradient sequences, for each optimization method", "why_tests_cant": "A missing update shows up only over several steps.", "anchors": ["theanolm/training/rmspropnesterovoptimizer.py:RMSPropNesterovOptimizer._get_param_updates", "theanolm/training/rmspropsgdoptimizer.py:RMSPropSGDOptimizer._get_param_updates", "theanolm/training/nesterovoptimizer.py:NesterovOptimizer._get_param_updates", "theanolm/training/sgdoptimizer.py:SGDOptimizer._get_param_updates"]}
{"id": "C49", "title": "Training file weights scale the updates", "statement": "Giving different weights to training files changes the size of the parameter updates computed from batches of those files.", "quantifier": "all batches and weights", "why_tests_cant": "A statement about functional dependence on an input.", "anchors": ["theanolm/training/basicoptimizer.py:BasicOptimizer.__init__", "theanolm/training/basicoptimizer.py:BasicOptimizer.update_minibatch"]}
{"id": "C50", "title": "A saved architecture is restored identically", "statement": "Writing a network architecture to a model file and reading it back gives the same inputs and layers, in the same order, with the same options.", "quantifier": "all architectures, with any number of inputs, layers and list values", "why_tests_cant": "Fails only when a list has more than ten elements.", "anchors": ["theanolm/network/architecture.py:Architecture.get_state", "theanolm/network/architecture.py:Architecture.from_state"]}
{"id": "C51", "title": "An incompatible architecture is detected", "statement": "Checking a model file against an architecture succeeds for the architecture it was written from, and fails when an input, layer or option of the checked architecture differs from the stored one.", "quantifier": "all pairs of architectures", "why_tests_cant": "All pairs of structures.", "anchors": ["theanolm/network/architecture.py:Architecture.check_state"]}
{"id": "C52", "title": "Architecture descriptions are parsed completely or rejected", "statement": "A description file is accepted exactly when every non-comment line is an input or layer with well-formed fields and the mandatory ones present; the result has one input or layer for each such line, in order, with repeated input and device fields collected in order.", "quantifier": "all description files", "why_tests_cant": "Arbitrary text.", "anchors": ["theanolm/network/architecture.py:Architecture.from_description"]}
{"id": "C53", "title": "Recurrent states of parallel sequences do not mix", "statement": "Combining the recurrent states of several sequences and taking the slice of one sequence gives the state of that sequence unchanged.", "quantifier": "all numbers of sequences, state shapes and values", "why_tests_cant": "All shapes.", "anchors": ["theanolm/network/recurrentstate.py:RecurrentState.combine_sequences", "theanolm/network/recurrentstate.py:RecurrentState.set"]}
{"id": "C54", "title": "Splitting a layer to devices does not change the network", "statement": "Parameters divided to several devices cover every output exactly once in parts whose sizes differ by at most one, and the concatenated pre-activation is the same as without splitting.", "quantifier": "all sizes and device counts", "why_tests_cant": "All sizes, remainders and counts.", "anchors": ["theanolm/network/basiclayer.py:BasicLayer._split_per_device", "theanolm/network/basiclayer.py:BasicLayer._tensor_preact"]}
{"id": "C55", "title": "Hierarchical softmax factorizes every output size", "statement": "For every output size of at least one the two level sizes computed for hierarchical softmax satisfy all the layer's assertions.", "quantifier": "all output sizes", "why_tests_cant": "All natural numbers.", "anchors": ["theanolm/network/hsoftmaxlayer.py:HSoftmaxLayer.__init__"]}
{"id": "C56", "title": "Output probabilities sum to one", "statement": "The output probabilities of the network over all classes are non-negative and sum to one in every position, with softmax and with hierarchical softmax output, with or without excluding <unk>.", "quantifier": "all parameters, inputs and vocabulary sizes", "why_tests_cant": "Real arithmetic over all activations; hierarchical softmax depends on divisibility of the size.", "anchors": ["theanolm/network/softmaxlayer.py:SoftmaxLayer.create_structure", "theanolm/network/hsoftmaxlayer.py:HSoftmaxLayer.create_structure"]}
{"id": "C57", "title": "Predictions never depend on the predicted or later words", "statement": "In a network of unidirectional recurrent, convolution and feed-forward layers the output at a time step is a function of the input words up to that time step only.", "quantifier": "all networks of such layers, parameters and inputs", "why_tests_cant": "A non-interference property: quantifies over pairs of inputs.", "anchors": ["theanolm/network/lstmlayer.py:LSTMLayer.create_structure", "theanolm/network/grulayer.py:GRULayer.create_structure", "theanolm/network/glulayer.py:GLULayer.create_structure"]}
{"id": "C58", "title": "Bidirectional layers do not see the target word", "statement": "The output of a network with bidirectional layers at a time step does not depend on the input word of the next time step, which is the word being predicted.", "quantifier": "all bidirectional networks and inputs", "why_tests_cant": "Non-interference over pairs of inputs; a single layer is safe while stacked layers may not be.", "anchors": ["theanolm/network/bidirectionallayer.py:BidirectionalLayer", "theanolm/network/lstmlayer.py:LSTMLayer.create_structure"]}
{"id": "C59", "title": "Scores of a sequence do not depend on the rest of the batch", "statement": "The outputs of the network at the unmasked positions of a sequence are the same whatever other sequences are in the mini-batch and however much padding follows the sequence.", "quantifier": "all batches and network structures", "why_tests_cant": "Quantifies over pairs of batches.", "anchors": ["theanolm/network/lstmlayer.py:LSTMLayer._create_time_step", "theanolm/parsing/batchiterator.py:BatchIterator._prepare_batch"]}
{"id": "C60", "title": "Step-by-step evaluation agrees with mini-batch evaluation", "statement": "Feeding a sequence one word at a time and passing the recurrent state from one call to the next (as the lattice decoder and the text sampler do) gives the same outputs as evaluating the whole sequence in one mini-batch.", "quantifier": "all sequences and recurrent networks", "why_tests_cant": "Holds by induction over the unbounded sequence length.", "anchors": ["theanolm/network/lstmlayer.py:LSTMLayer.create_structure", "theanolm/network/network.py:Network", "theanolm/network/recurrentstate.py:RecurrentState"]}
{"id": "C61", "title": "Generated text has the requested form", "statement": "Generated sequences all have the requested number of tokens plus the length of the seed, begin with <s> followed by the seed, and every sampled word belongs to the class sampled by the network from the state reached by feeding the preceding tokens.", "quantifier": "all seeds, lengths >= 1, numbers of sequences and random outcomes", "why_tests_cant": "All random outcomes.", "anchors": ["theanolm/textsampler.py:TextSampler.generate"]}
{"id": "C62", "title": "Interpolation weights behave as probabilities", "statement": "Linear interpolation of two log probabilities is between the two, equals one of them for weights zero and one (even when the other is minus infinity), and log-linear interpolation ignores a term with zero weight.", "quantifier": "all log probabilities and weights between zero and one", "why_tests_cant": "Real arithmetic with infinities.", "anchors": ["theanolm/backend/probfunctions.py:interpolate_linear", "theanolm/backend/probfunctions.py:interpolate_loglinear"]}
{"id": "C63", "title": "Noise distributions are distributions over the classes", "statement": "The uniform and log-uniform noise distributions assign non-negative probabilities that sum to one over the classes, and their samples are always valid class IDs.", "quantifier": "all numbers of classes and all random outcomes", "why_tests_cant": "Telescoping sums over an arbitrary support.", "anchors": ["theanolm/backend/classdistribution.py:UniformDistribution", "theanolm/backend/classdistribution.py:LogUniformDistribution"]}
{"id": "C64", "title": "Parameters are saved and restored exactly", "statement": "After saving parameters to a file and restoring them to parameters with the same names the values are equal; restoring from a file in which a parameter is missing is an error; adding the same name twice is an error.", "quantifier": "all sets of parameters", "why_tests_cant": "All name sets.", "anchors": ["theanolm/backend/parameters.py:Parameters"]}
{"id": "C65", "title": "Custom validation statistics are used", "statement": "When a statistics function is given for validation, it is used to combine the validation samples to the cost of the validation.", "quantifier": "all statistics functions and samples", "why_tests_cant": "Statement about dependence on a function argument.", "anchors": ["theanolm/training/trainer.py:Trainer.set_validation", "theanolm/training/trainer.py:Trainer._validate"]}
{"id": "C66", "title": "Lattice nodes that are ready are listed in time order", "statement": "Whenever several nodes have all their predecessors listed, the node with the lowest time is listed next; nodes without a time come after nodes with a time.", "quantifier": "all lattices and node times", "why_tests_cant": "All graphs with arbitrary times.", "anchors": ["theanolm/scoring/lattice.py:Lattice.sorted_nodes"]}
{"id": "C67", "title": "Recomputed membership probabilities are relative frequencies", "statement": "When membership probabilities are computed from word counts, the probability of a word is its count divided by the total count of its class, where the special tokens count at least once; in a class whose words were not counted every word gets the same probability.", "quantifier": "all vocabularies and word counts", "why_tests_cant": "Arbitrary counts and class assignments.", "anchors": ["theanolm/vocabulary/vocabulary.py:Vocabulary.compute_probs"]}
{"id": "C68", "title": "Class memberships of word IDs", "statement": "The class and the probability that are looked up for a word ID are those of the word, and those of the unknown word for words outside the shortlist.", "quantifier": "all vocabularies and word IDs", "why_tests_cant": "All IDs including out-of-shortlist ones.", "anchors": ["theanolm/vocabulary/vocabulary.py:Vocabulary.get_class_memberships"]}
{"id": "C69", "title": "Class probabilities are the masses of the classes", "statement": "The unigram probability of a class is the sum of the counts of its words divided by the sum of all counts, and the class probabilities sum to one.", "quantifier": "all vocabularies and word counts", "why_tests_cant": "Arbitrary counts.", "anchors": ["theanolm/vocabulary/vocabulary.py:Vocabulary.get_class_probs"]}
{"id": "C70", "title": "Lattices survive an SLF write/read round trip", "statement": "Writing a lattice in SLF format and reading the output gives the same lattice: the same nodes with the same times, the same links between the same nodes with the same words and scores, the same initial and final node, utterance ID, language model scale and word insertion penalty. A lattice that was itself read from an SLF file is equal to the one read back.", "quantifier": "all lattices and all words and utterance IDs", "why_tests_cant": "Lattices of any size and arbitrary text; characters with a special meaning are rare.", "anchors": ["theanolm/scoring/lattice.py:Lattice.write_slf", "theanolm/scoring/slflattice.py:SLFLattice"]}
{"id": "C71", "title": "Kaldi word and ID mappings are inverses", "statement": "When a Kaldi vocabulary file gives distinct nonnegative IDs to distinct words, looking up the ID of a word and then the word of that ID gives back the word, and vice versa, for all lines of the file and nothing else.", "quantifier": "all vocabulary files", "why_tests_cant": "All orders and gaps of IDs.", "anchors": ["theanolm/scoring/latticebatch.py:LatticeBatch.__init__"]}
{"id": "C72", "title": "A Kaldi lattice archive is split into its lattices", "statement": "Reading a Kaldi archive gives one lattice for each maximal run of nonblank lines, with exactly these lines, and the files are read in the given order.", "quantifier": "all archives and lists of archives", "why_tests_cant": "All positions and numbers of blank lines, also at the end of the file.", "anchors": ["theanolm/scoring/latticebatch.py:LatticeBatch.__iter__"]}
{"id": "C73", "title": "A rescored lattice keeps the scores of the hypotheses", "statement": "When no tokens were recombined, the acoustic score of every complete path of the rescored lattice equals the acoustic score of the hypothesis with the same words, and its language model score is the sum of the original language model score and the neural network score of that hypothesis.", "quantifier": "all determinized lattices, networks and decoding options", "why_tests_cant": "Scores are lost only on null links at the end of a path, and prefixes may be shared in arbitrary ways.", "anchors": ["theanolm/scoring/rescoredlattice.py:RescoredLattice", "theanolm/scoring/lattice.py:Lattice"]}
{"id": "C74", "title": "Every decoding result can be written as a lattice", "statement": "Constructing the rescored lattice from a decoded lattice, its final tokens and its recombined tokens never fails, whether the lattice is determinized or not, as long as its null links do not form a cycle.", "quantifier": "all lattices, networks, decoding options and vocabularies", "why_tests_cant": "The assertion about recombined histories and the word lookups have to hold for all combinations of tokens.", "anchors": ["theanolm/scoring/rescoredlattice.py:RescoredLattice"]}
{"id": "C75", "title": "Excluding unknown words also excludes out-of-shortlist words", "statement": "When a scorer is requested to exclude unknown words, no score is given for <unk> nor for any word outside the shortlist, whether or not the <unk> probability is distributed among the out-of-shortlist words.", "quantifier": "all vocabularies, shortlists, mini-batches and networks", "why_tests_cant": "The combinations of the two flags, the shortlist and the presence of unigram probabilities interact.", "anchors": ["theanolm/scoring/textscorer.py:TextScorer.score_batch", "theanolm/commands/score.py"]}
{"id": "C76", "title": "The score report accounts for every word", "statement": "For every text the score command reports counts such that every word is counted exactly once as a first word of a sentence, a predicted word, an unknown word or a word of zero probability; the cross entropy is the negated mean of the log probabilities of the predicted words and the perplexity its exponential, and the command never fails on a text because some of its words cannot be predicted.", "quantifier": "all texts, subword markings, networks and levels of output", "why_tests_cant": "The counts are accumulated over any number of mini-batches and sentences, and the failing case needs a text without predicted words.", "anchors": ["theanolm/commands/score.py:_score_text", "theanolm/commands/score.py:_merge_subwords"]}
{"id": "C77", "title": "Training does not fail by itself", "statement": "Whatever the order of validations, saved models, learning rate decreases, ends of epochs and restarts, the bookkeeping of training never raises an exception: training can fail only if computing the validation perplexity fails, and a new process can always be started from the file that an earlier one has written.", "quantifier": "all training histories, settings and validation results", "why_tests_cant": "An invariant over all training histories.", "anchors": ["theanolm/training/trainer.py:Trainer.train", "theanolm/training/trainer.py:Trainer._validate", "theanolm/training/trainer.py:Trainer._reset_state"]}
{"id": "C78", "title": "Training costs are the documented functions of the counted targets", "statement": "The cost of a mini-batch is the mean negative log probability of the targets inside the mask other than the excluded word, plus the L1 and L2 penalties, and the returned number of words is the number of those targets; values in other positions do not matter as long as they are finite. The exponential of the cross-entropy cost is the perplexity. With noise-contrastive estimation the log probability of a position is the logarithm of the probability of telling the target from the noise words, with BlackOut it is that of the weighted shares, which sum to one and do not change when a constant is added to all unnormalized log probabilities. The noise words are drawn per position, per time step or per mini-batch as requested, from the requested distribution.", "quantifier": "all mini-batch shapes, masks, targets, parameters, probabilities, noise samples and sharing modes", "why_tests_cant": "An identity between sums over arbitrary mini-batches and real functions; a test compares a few values with another implementation.", "anchors": ["theanolm/training/cost.py:Cost.get_tensor", "theanolm/training/cost.py:CrossEntropyCost", "theanolm/training/cost.py:NCECost", "theanolm/training/cost.py:BlackoutCost", "theanolm/network/samplingoutputlayer.py:SamplingOutputLayer", "theanolm/network/network.py:Network.set_sampling"]}
{"id": "C79", "title": "Every layer computes its documented function", "statement": "In every unmasked position the output of every layer of the network is the documented function of the outputs of its input layers, unit by unit: projection row, activation of the affine transformation, sum of the (linearly resized) inputs, highway gating, gated convolution over the last time steps with zero padding, LSTM and GRU transitions from a zero initial state (masked positions leave the state unchanged), concatenation of a forward and a shifted backward recurrent layer, (hierarchical) softmax; whatever devices the parameters are divided to.", "quantifier": "all networks, parameters, mini-batches, positions and divisions of the parameters to devices", "why_tests_cant": "Equality of the vectorized, sliced, device-divided implementation with per-unit equations for all sizes and inputs.", "anchors": ["theanolm/network/lstmlayer.py:LSTMLayer._create_time_step", "theanolm/network/grulayer.py:GRULayer._create_time_step", "theanolm/network/bidirectionallayer.py:BidirectionalLayer", "theanolm/network/highwaylayer.py:HighwayLayer.create_structure", "theanolm/network/glulayer.py:GLULayer.create_structure", "theanolm/network/additionlayer.py:AdditionLayer.create_structure", "theanolm/network/fullyconnectedlayer.py:FullyConnectedLayer.create_structure", "theanolm/network/projectionlayer.py:ProjectionLayer.create_structure", "theanolm/network/softmaxlayer.py:SoftmaxLayer.create_structure", "theanolm/network/weightfunctions.py:get_submatrix"]}
{"id": "C80", "title": "A network is what its description says, with parameters of the right shapes", "statement": "When a network is created from an architecture description, it has one input or layer for every input and layer of the description, in order and with its name, type, input layers, size, activation and devices (by default, the size is the total size of the inputs and the device is the default device; the output layer has one unit per class). Every parameter has the shape that the sizes of the layer and its inputs require, however it is divided to devices, and the biases have their documented initial values. The network can then be evaluated on every mini-batch of IDs in the vocabulary, without indexing or shape errors, exactly when projection layers follow network inputs and all other layers follow layers that produce features; every layer then produces in every position a vector of its declared size.", "quantifier": "all architecture descriptions, vocabulary sizes, initial values and mini-batches", "why_tests_cant": "Soundness of all possible architectures for all sizes.", "anchors": ["theanolm/network/network.py:Network.__init__", "theanolm/network/network.py:create_layer", "theanolm/network/basiclayer.py:BasicLayer.__init__", "theanolm/network/basiclayer.py:BasicLayer._init_weight", "theanolm/network/basiclayer.py:BasicLayer._init_bias", "theanolm/network/bidirectionallayer.py:BidirectionalLayer.__init__", "theanolm/network/hsoftmaxlayer.py:HSoftmaxLayer.__init__", "theanolm/network/additionlayer.py:AdditionLayer.__init__"]}
{"id": "C81", "title": "A saved network is loaded with the same structure and parameters", "statement": "Whatever values training gives to the parameters of a network, saving it (once or repeatedly to the same file) succeeds, and loading the file, whatever the random initial values and the default device, gives a network with the same layers, connections, sizes and devices and exactly the parameter values that were last saved.", "quantifier": "all architecture descriptions of the supported layer types, all initial and trained parameter values, any number of saves", "why_tests_cant": "The round trip goes through a path for every parameter array of every layer type; a test saves a few small networks, and collisions of paths or options that are not restored show only for some descriptions.", "anchors": ["theanolm/network/network.py:Network.get_state", "theanolm/network/network.py:Network.set_state", "theanolm/network/network.py:Network.from_file", "theanolm/network/basiclayer.py:BasicLayer.get_state", "theanolm/network/basiclayer.py:BasicLayer.set_state", "theanolm/network/bidirectionallayer.py:BidirectionalLayer.get_state", "theanolm/network/architecture.py:Architecture.from_state"]}
{"id": "C82", "title": "The device used by default is an available device", "statement": "A requested device is used if it is available, and otherwise an error is reported. If no device is requested, the unnamed default context is used if there is one, otherwise the first available context; with no contexts, no device is named.", "quantifier": "all lists of available contexts and all requests", "why_tests_cant": "Depends on the GPUs of the machine; tests run on one machine.", "anchors": ["theanolm/backend/gpu.py:get_default_device"]}
{"id": "C83", "title": "SLF lines are split into fields by white space, with quotes, escapes and comments", "statement": "The fields on a line of an SLF file are separated by white space. A backslash makes the next character a part of the field, double quotes make everything up to the closing quote a part of the field (inside them only quotes and backslashes can be escaped), and a hash sign outside quotes starts a comment. Unclosed quotes or a backslash at the end are an error. Any value can be given in quotes, when the quotes and backslashes in it are escaped.", "quantifier": "all lines", "why_tests_cant": "Arbitrary text with nested quotes, escapes and comments.", "anchors": ["theanolm/scoring/slflattice.py:_split_slf_line"]}
{"id": "C84", "title": "The classes that wctool writes can be read as a vocabulary", "statement": "wctool always ends, and the file that it writes can be read as a vocabulary in the same format: the vocabulary has the words of the optimizer in the same order, and two words are in the same class exactly when the optimizer has them in the same class. In the format \"classes\" the words of a class have equal membership probabilities. In the format \"srilm-classes\" the membership probability of a word is its share of the occurrences of the class in the training data. The result does not depend on how often intermediate classes are saved.", "quantifier": "all training texts, initial vocabularies, numbers of classes, both implementations, all saving frequencies", "why_tests_cant": "Depends on the order of saves and on words or classes that do not occur in the training data; unbounded texts and vocabularies.", "anchors": ["wordclasses/wctool.py:save", "wordclasses/wctool.py:main", "wordclasses/bigramoptimizer.py:BigramOptimizer.words", "wordclasses/numpybigramoptimizer.py:NumpyBigramOptimizer.get_word_prob", "theanolm/vocabulary/vocabulary.py:Vocabulary.from_file"]}
{"id": "C85", "title": "The decode command writes the n best hypotheses of each lattice", "statement": "With --n-best N the decode command writes, for each lattice of the job in order, min(N, number of hypotheses) lines, from the best to the worst. Each line shows a different word sequence, that of a path from the initial node to a final node of the lattice, and the utterance ID; in format \"full\" also the acoustic, language model and total score of the path in the requested base, and the number of the words. Without pruning no path is better than the first line. Lattices without an utterance ID are numbered, so that the lines of different lattices can be told apart.", "quantifier": "all lattices, networks, vocabularies, decoding options, output formats, numbers N, logarithm bases", "why_tests_cant": "Unbounded lattices and numbers of hypotheses; combines the search, the conversion of histories to words and the text format.", "anchors": ["theanolm/commands/decode.py:decode", "theanolm/commands/decode.py:format_token", "theanolm/scoring/latticedecoder.py:Token.history_words"]}
{"id": "C86", "title": "A lattice written by the decode command in SLF format can be read back and stands for the result of decoding", "statement": "With --output slf the decode command writes, for each lattice, a lattice that the SLF reader accepts, with the same utterance ID. For every hypothesis that decoding returned, the lattice that is read has a path from the initial to a final node with the words of the hypothesis; if no hypotheses were recombined (or there are no null links) every path has the words of a path of the original lattice, and if no hypotheses were recombined and null links have no scores, every path has the words, acoustic score and language model scores of a hypothesis. The language model scale and word insertion penalty in the file are those that were used in decoding.", "quantifier": "all determinized lattices, networks, vocabularies, decoding options, utterance IDs and words without special characters", "why_tests_cant": "Unbounded lattices; combines the search, the construction of the rescored lattice, the writer and the reader.", "anchors": ["theanolm/commands/decode.py:decode", "theanolm/scoring/rescoredlattice.py:RescoredLattice", "theanolm/scoring/lattice.py:Lattice.write_slf", "theanolm/scoring/slflattice.py:SLFLattice"]}
{"id": "C87", "title": "An archive written by the decode command in Kaldi format can be read back, one lattice for each lattice of the job", "statement": "With --output kaldi the decode command writes an archive that can be given to the decode command again with the same Kaldi vocabulary. It contains one lattice for each lattice of the job, in the same order and with the same utterance ID; each of them has the nodes and links, with words, scores and transitions, of the rescored lattice, and stands for the result of decoding the original lattice in the sense of C86.", "quantifier": "all jobs of determinized lattices with words from the Kaldi vocabulary, networks, vocabularies, decoding options", "why_tests_cant": "Unbounded number and size of lattices; combines the search, the construction of the rescored lattice, the writer, the division of the archive and the reader.", "anchors": ["theanolm/commands/decode.py:decode", "theanolm/scoring/rescoredlattice.py:RescoredLattice", "theanolm/scoring/lattice.py:Lattice.write_kaldi", "theanolm/scoring/latticebatch.py:LatticeBatch", "theanolm/scoring/kaldilattice.py:KaldiLattice"]}
{"id": "C88", "title": "The score command reports every sentence of the text and the statistics of all", "statement": "With --output perplexity or word-scores, the score command writes a report about the lines of the text that contain words, in order. With word-scores there is, for every sentence, a numbered heading, one line for every word after the first with the word, at most three preceding words (after an ellipsis if there are more), its log probability in the requested base or the information that it was not predicted, and whether it is in the shortlist, and after them the perplexity of the sentence. In the end there are the numbers of sentences, words, tokens, predicted, excluded and zero probability words, cross entropy in base e and in the requested base, and perplexity, computed from the log probabilities of the predicted words of all sentences. The scores of a sentence are those that the sentence gets alone.", "quantifier": "all texts, vocabularies, networks that score sequences independently, subword markings, logarithm bases", "why_tests_cant": "Unbounded texts and sentences; combines reading and batching the text, scoring, merging of subwords and the text format.", "anchors": ["theanolm/commands/score.py:score", "theanolm/commands/score.py:_score_text", "theanolm/commands/score.py:_write_word_scores", "theanolm/parsing/linearbatchiterator.py:LinearBatchIterator"]}
{"id": "C89", "title": "The score command writes one score for each line with words", "statement": "With --output utterance-scores, the score command writes, for every line of the text that contains words, in order, a line with the score of the utterance in the requested base, and nothing for blank lines. The score is the sum of the log probabilities of the words; when no word has zero probability it equals the sum of the log probabilities that are written about the words of the line with --output word-scores.", "quantifier": "all texts, vocabularies, networks, logarithm bases", "why_tests_cant": "Unbounded texts; relates two different scoring paths of the program.", "anchors": ["theanolm/commands/score.py:score", "theanolm/commands/score.py:_score_utterances", "theanolm/scoring/textscorer.py:TextScorer.score_line"]}
{"id": "C90", "title": "The train command uses and stores the right vocabulary", "statement": "When the model file is new and no vocabulary is given, the train command uses a vocabulary of exactly the words of the training text and the special tokens, all in the shortlist, with unigram probabilities equal to relative frequencies among the ordinary words. With a vocabulary file, the shortlist is exactly the words of the file and the special tokens, the rest of the vocabulary are the other words of the training text, unigram probabilities are relative frequencies in the training text, and the class membership probabilities are those of the file or, if the file gives only classes, relative frequencies within each class; the file is accepted exactly when it is well-formed, without repeated words and classes of zero probability. The vocabulary is stored in the model file, and running the command again on the file, with any options and training text, uses exactly the same vocabulary and does not change it. A vocabulary stored without unigram probabilities gets them from the training text, whose other words are added outside the shortlist without changing the IDs and classes of the old words.", "quantifier": "all training texts, vocabulary files, options and stored vocabularies", "why_tests_cant": "Unbounded texts and vocabularies; relates separate runs of the command with different options.", "anchors": ["theanolm/commands/train.py:_read_vocabulary", "theanolm/vocabulary/vocabulary.py:Vocabulary.from_state", "theanolm/vocabulary/vocabulary.py:Vocabulary.get_state", "theanolm/vocabulary/statistics.py:compute_word_counts"]}
{"id": "C91", "title": "The perplexity that the train command prints is that of the saved model", "statement": "When training with validation data ends, the train command prints the validation perplexity of the model that is in the model file, or, exactly when no model has been saved, that the model has not been trained. The perplexity is one of those measured in the validation because of which the model was saved, the cost of the model is the statistic of those measurements, and every cost measured later is at least 0.999 times that cost. Computing the printed perplexity does not fail.", "quantifier": "all training histories, including restarts from the model file, annealings, and stopping criteria", "why_tests_cant": "Unbounded number of updates, validations and restarts.", "anchors": ["theanolm/commands/train.py:train", "theanolm/training/trainer.py:Trainer._validate", "theanolm/training/trainer.py:Trainer._set_candidate_state"]}
{"id": "C92", "title": "Invalid arguments of the train command have no effect", "statement": "The train command accepts its arguments exactly when there are at most as many noise samples as classes and at most as many weights and sampling coefficients as training files; a training file without a weight has weight one. A run whose arguments are rejected leaves the model file as it was.", "quantifier": "all arguments, training texts and model files", "why_tests_cant": "Unbounded lists of arguments; relates a rejected run to later runs.", "anchors": ["theanolm/commands/train.py:train", "theanolm/commands/train.py:_read_vocabulary"]}
{"id": "C93", "title": "fix-class-probabilities gives the relative frequencies of the words of each class", "statement": "Given a file of class definitions (in mkcls or SRILM format) and a file of n-gram counts, the recipe script writes exactly one line for each class and each word defined in the class. The probability on the line is the unigram count of the word divided by the total unigram count of the words of the class; if the total is zero, it is the given probability divided by the total of the given probabilities of the class. The output can be read as a vocabulary whose membership probabilities are these numbers. Class definitions with a malformed line are rejected.", "quantifier": "all class definition files and count files, with any repetitions of words and n-grams", "why_tests_cant": "Unbounded files; relates the output of the script to the vocabulary reader.", "anchors": ["recipes/common/fix-class-probabilities.py", "recipes/common/wordclasses.py:WordClasses.read", "recipes/common/wordclasses.py:WordClasses.write", "recipes/common/ngramcounts.py:NGramCounts.read"]}
{"id": "C94", "title": "N-gram counts are the numbers of occurrences and survive writing and reading", "statement": "After counting a text, an n-gram has a count exactly when it has at least one and at most max_order words and occurs in the sequence of the words of the text, and its count is the number of its occurrences. Writing counts to a file and reading them back gives the n-grams that are within the given limits of length and count, with the same counts; of several lines for an n-gram the last one counts. The n-grams of a length are listed once each, and the numbers of n-grams and of common n-grams are the sizes of the sets. Pruning removes the n-grams whose count is at most the given number.", "quantifier": "all texts, orders, limits and files", "why_tests_cant": "Unbounded texts and n-gram orders.", "anchors": ["recipes/common/ngramcounts.py:NGramCounts.from_text", "recipes/common/ngramcounts.py:NGramCounts.read", "recipes/common/ngramcounts.py:NGramCounts.write", "recipes/common/ngramcounts.py:NGramCounts.prune_count"]}
{"id": "C95", "title": "Creating and finding word classes", "statement": "Creating a class without giving a name always ends and adds an empty class with the first number, from the next unused one on, whose name no class has; the other classes are unchanged. Searching for the class of a word gives the first class that has it, the map from words to classes gives the last one, and both find nothing exactly when no class has the word.", "quantifier": "all collections of classes and all words", "why_tests_cant": "The loop for a free name is unbounded; the lookup must be right for every collection.", "anchors": ["recipes/common/wordclasses.py:WordClasses.create", "recipes/common/wordclasses.py:WordClasses.find_containing", "recipes/common/wordclasses.py:WordsToClasses"]}
{"id": "C96", "title": "A network is a probability distribution over words and sentences", "statement": "Given any words before, the scores that text scoring gives to the words that may follow are the logarithms of nonnegative numbers that sum to one: over the shortlist, or, when the probability of <unk> is distributed to the words outside the shortlist, over the vocabulary without <unk>. With a softmax output and excluding unknown words, <unk> has zero probability and the rest still sum to one; otherwise every word with a positive class membership probability has a finite score. Without bidirectional layers the score of a word depends only on the words before it in its own sequence, and the probabilities of any different sentences sum to at most one. All this holds whatever values of the same shape the parameters have been trained to.", "quantifier": "all networks that can be created from a description and evaluated, all parameter values, all vocabularies that can be created, all histories, all finite sets of sentences", "why_tests_cant": "The claim is about all parameter values and histories, and about infinitely many sentences; tests can only sum over a small vocabulary for some parameters.", "anchors": ["theanolm/scoring/textscorer.py:TextScorer", "theanolm/network/network.py:Network.target_probs", "theanolm/network/softmaxlayer.py:SoftmaxLayer", "theanolm/vocabulary/vocabulary.py:Vocabulary"]}
{"id": "C97", "title": "Lattice decoding and text scoring give the same language model scores", "statement": "Evaluating the network for many tokens in one call gives every token the same output and recurrent state as evaluating it for that token alone. When no score is given for <unk>, the neural network score of every hypothesis that lattice decoding returns, computed by passing recurrent states along the lattice, equals the sum of the scores that text scoring gives to the words of the hypothesis in a sentence with <s> and </s>, including how words outside the shortlist and outside the vocabulary are treated.", "quantifier": "all networks without bidirectional or gated linear unit layers that can be created, all parameter values, vocabularies, lattices and pruning options", "why_tests_cant": "The two computations share no code: one passes states token by token through a lattice, the other evaluates whole mini-batches. Tests compare a few small lattices.", "anchors": ["theanolm/scoring/latticedecoder.py:LatticeDecoder._append_word", "theanolm/scoring/textscorer.py:TextScorer", "theanolm/network/recurrentstate.py:RecurrentState.combine_sequences"]}
{"id": "C98", "title": "Text is generated from the distribution that text scoring uses", "statement": "Generating text with a network that can be created from a description succeeds for every number of sequences and length and every seed of shortlist words, if there are no bidirectional or gated linear unit layers. Every generated word is drawn by drawing a class from a probability distribution and then a word of that class; the probability that any given word is drawn in that way, given the words generated so far in the same sequence, is exactly the probability whose logarithm text scoring gives to the word after those words. The other sequences that are generated at the same time do not affect it.", "quantifier": "all networks, parameter values, vocabularies, seeds, lengths, numbers of sequences and random outcomes", "why_tests_cant": "Generated text is random; tests can only compare frequencies of a few words for a few networks.", "anchors": ["theanolm/textsampler.py:TextSampler.generate", "theanolm/scoring/textscorer.py:TextScorer", "theanolm/vocabulary/vocabulary.py:Vocabulary.class_ids_to_word_ids"]}
{"id": "C99", "title": "Decoding a lattice finds the best hypotheses under the network", "statement": "Decoding an acyclic lattice without pruning with a network that can be created from a description succeeds if there is a path to a final node. The result has exactly one hypothesis for each word sequence of the lattice, in descending order of scores. The score of a hypothesis is the greatest, over the paths with those words, of the acoustic score plus the scaled interpolation of the lattice language model score and the log probability that text scoring gives to the word sequence as a sentence, plus insertion penalties.", "quantifier": "all networks, parameter values, vocabularies, lattices, weights, scales and penalties", "why_tests_cant": "The optimum is over exponentially many paths, and needs both the decoder and the text scorer for the same network.", "anchors": ["theanolm/scoring/latticedecoder.py:LatticeDecoder.decode", "theanolm/scoring/textscorer.py:TextScorer", "theanolm/network/network.py:Network"]}
{"id": "C100", "title": "Rescored lattices keep the hypotheses and scores also with recombination", "statement": "When tokens were recombined in decoding, the rescored lattice still has, for every hypothesis that decoding returned, a complete path with its words, acoustic score and transitions, whose language model score is the sum of the original score and the score of the neural network. Every complete path of the rescored lattice has the words, the acoustic score and the transitions of a complete path of the original lattice.", "quantifier": "all determinized lattices, decoders, scores and recombination orders", "why_tests_cant": "The links of recombined tokens are added to a tree that later recombinations refer to; the result depends on the order of all recombinations.", "anchors": ["theanolm/scoring/rescoredlattice.py:RescoredLattice.__init__", "theanolm/scoring/latticedecoder.py:LatticeDecoder._sorted_recombined_tokens"]}
{"id": "C101", "title": "Recombination does not lose word sequences", "statement": "When decoding does not prune hypotheses (no beam and no limit on the number of tokens), the rescored lattice contains exactly the word sequences of the original lattice, whatever the recombination order is.", "quantifier": "all acyclic determinized lattices, decoders, scores and recombination orders", "why_tests_cant": "The hypotheses that were recombined are added back in the reverse order of recombination, and each of them may continue through many later recombinations; the claim is about all paths through all of them.", "anchors": ["theanolm/scoring/rescoredlattice.py:RescoredLattice.__init__", "theanolm/scoring/latticedecoder.py:LatticeDecoder.decode", "theanolm/scoring/latticedecoder.py:LatticeDecoder._sorted_recombined_tokens"]}
{"id": "C102", "title": "Recombination does not change the best hypothesis of networks with limited memory", "statement": "When the predictions of the network depend only on the last words that recombination compares, and decoding does not prune hypotheses (log-linear interpolation, no beam, no limit on the number of tokens), the first hypothesis is a best path of the lattice, and for every path there is a hypothesis that ends in the same words and is at least as good. In particular this holds for networks without recurrent layers with every recombination order.", "quantifier": "all acyclic lattices, networks with limited memory, score functions and recombination orders", "why_tests_cant": "Optimality over exponentially many paths that are discarded by recombination.", "anchors": ["theanolm/scoring/latticedecoder.py:LatticeDecoder.decode", "theanolm/scoring/latticedecoder.py:LatticeDecoder._sorted_recombined_tokens", "theanolm/scoring/latticedecoder.py:LatticeDecoder.Token.recompute_hash"]}
{"id": "C103", "title": "Language model scores of rescored lattices", "statement": "When the predictions of the network depend only on the last words that recombination compares, and decoding does not prune hypotheses, the language model score of every complete path of the rescored lattice is the language model score of the path with the same words in the original lattice, plus the log probability that the network gives to those words and the end of the sentence.", "quantifier": "all acyclic lattices, networks with limited memory and recombination orders", "why_tests_cant": "There are exponentially many paths through the links that were added for recombined hypotheses; the scores of those links are differences that only give the right sum along whole paths.", "anchors": ["theanolm/scoring/rescoredlattice.py:RescoredLattice.__init__", "theanolm/scoring/latticedecoder.py:LatticeDecoder.decode"]}
{"id": "C104", "title": "Comparing word classes", "statement": "Comparing two word classes tells, for any two classes and in either order, whether they have the same ID and the same words with the same membership probabilities within a tolerance; a class equals itself and no object of another kind.", "quantifier": "all word classes", "why_tests_cant": "The classes can have any words and probabilities, and the failures need classes of the same size.", "anchors": ["theanolm/vocabulary/wordclass.py:WordClass.__eq__", "theanolm/vocabulary/wordclass.py:WordClass.__ne__"]}
{"id": "C105", "title": "Convolution gives outputs of the documented sizes and elements", "statement": "Convolution with padding 'same' places the middle of the filter, with 'valid' the whole filter, and with 'full' some element of the filter, on elements of the input at distances of the stride; every output element is the sum of the products of the elements of the filter and the input that are on each other, in each sample and output feature separately. An unknown padding is a ValueError. 1-dimensional convolution does the same in one dimension, and gives a convolution layer the sums over each window of successive inputs.", "quantifier": "all input and filter sizes, strides and paddings", "why_tests_cant": "Even filter sizes, strides that do not divide the size and the conversions between four orders of dimensions give very many combinations.", "anchors": ["theanolm/backend/operations.py:conv2d", "theanolm/backend/operations.py:conv1d", "theanolm/network/basiclayer.py:BasicLayer._tensor_conv1d"]}
{"id": "C106", "title": "Restoring a model file gives exactly the training state that was saved last", "statement": "After any number of saves during training to one model file, directly or by way of a state that was taken before validation, restoring the training state from the file gives exactly the state that was saved last: the values of all the parameters of the network and the optimizer, the learning rate, the order of the training sentences and the position in it, the epoch and update number and the cost history; the vocabulary in the file stays the same. The state can always be saved. If a part of the state is missing from the file, restoring it is an error.", "quantifier": "all networks, optimization methods, states and sequences of saves", "why_tests_cant": "The number and names of the parameters depend on the network and the optimizer, and the values on the whole training; a name that is used twice or a part that is not replaced is seen only when the values differ.", "anchors": ["theanolm/training/trainer.py:Trainer.get_state", "theanolm/training/trainer.py:Trainer._reset_state", "theanolm/training/trainer.py:Trainer._set_candidate_state", "theanolm/training/basicoptimizer.py:BasicOptimizer.get_state", "theanolm/training/basicoptimizer.py:BasicOptimizer.set_state", "theanolm/parsing/shufflingbatchiterator.py:ShufflingBatchIterator.get_state", "theanolm/parsing/shufflingbatchiterator.py:ShufflingBatchIterator.set_state"]}
{"id": "C107", "title": "Training that is interrupted and continued from the model file goes on as without the interruption", "statement": "When a training process ends, for any reason, and a new process is started from the model file that was saved last, the new process makes exactly the updates that the old process made or would have made after the saved state: with the same parameters, learning rates and mini-batches, the same validation costs, saving the same models, and ending after the same update.", "quantifier": "all networks, optimizers, training data, validation costs, numbers of samples, patience, stopping criteria, and all points of training", "why_tests_cant": "The state of training is spread over the network, optimizer, iterator, trainer and stopper, and the model is saved in the middle of collecting validation samples; whether all of it is restored shows only after continuing many updates from each possible point of training.", "anchors": ["theanolm/training/trainer.py:Trainer.initialize", "theanolm/training/trainer.py:Trainer.train", "theanolm/training/trainer.py:Trainer._reset_state", "theanolm/training/trainer.py:Trainer._validate", "theanolm/training/trainer.py:Trainer._set_candidate_state", "theanolm/training/stoppers.py:AnnealingCountStopper", "theanolm/parsing/shufflingbatchiterator.py:ShufflingBatchIterator.set_state"]}
{"id": "C108", "title": "The classes that wctool writes are a local optimum of the class bigram model of the training text", "statement": "When wctool finishes and its output is read as a vocabulary, the greatest probability that a class bigram model (the product of the probability of the class of the word given the class of the preceding word, and the probability of the word in its class) with these classes can give to the training text is at least that of the initial classes, and moving any single word that is not alone in its class to another class does not give a class bigram model that gives the training text a greater probability.", "quantifier": "all training texts, initial classes, numbers of classes, both implementations of the optimizer, and all probabilities of the models", "why_tests_cant": "The theorem compares the result with every choice of the probabilities in the models with each set of classes; tests can only check that the reported likelihood grows, with the formula that the code itself uses.", "anchors": ["wordclasses/bigramoptimizer.py:BigramOptimizer.move_to_best_class", "wordclasses/numpybigramoptimizer.py:NumpyBigramOptimizer.log_likelihood", "wordclasses/numpybigramoptimizer.py:NumpyBigramOptimizer._evaluate", "wordclasses/theanobigramoptimizer.py:TheanoBigramOptimizer.log_likelihood", "wordclasses/theanobigramoptimizer.py:TheanoBigramOptimizer._evaluate", "theanolm/vocabulary/statistics.py:BigramStatistics", "wordclasses/wctool.py:main"]}
{"id": "C109", "title": "Scores and perplexities are bounded whatever the text is", "statement": "Given a model, the outputs of the layers have a bound, the probabilities of the classes (except the class of <unk> when it is excluded) have a positive lower bound, the scores of words other than minus infinity have a lower bound, and the perplexity of texts has an upper bound, none of which depends on the text or its length, unless the network has an LSTM layer with another activation function than tanh. In any network there are such bounds for mini-batches with a given number of time steps. The outputs of GRU layers, and LSTM layers with tanh activation, are between -1 and 1 whatever the parameters are.", "quantifier": "all networks and parameters, all mini-batches and texts of any length, all dropout masks", "why_tests_cant": "The bound is over texts of any length; that recurrent states cannot grow step by step needs an invariant of the recurrence.", "anchors": ["theanolm/network/lstmlayer.py:LSTMLayer._create_time_step", "theanolm/network/grulayer.py:GRULayer._create_time_step", "theanolm/network/softmaxlayer.py:SoftmaxLayer.create_structure", "theanolm/network/hsoftmaxlayer.py:HSoftmaxLayer.create_structure", "theanolm/network/basiclayer.py:BasicLayer._tensor_preact", "theanolm/scoring/textscorer.py:TextScorer.compute_perplexity"]}
{"id": "C110", "title": "Perplexity does not depend on the size of the mini-batches", "statement": "The perplexity of text files (as computed in validation) with a network without bidirectional layers is the same with every mini-batch size, and whatever the order of the files is: it is exp of minus the mean of the log probabilities of the included words of the sequences of the files, each of which is scored as if it were alone. If there are no included words, or a log probability is not finite, the computation fails in the same way with every mini-batch size. Log probabilities of words are never positive.", "quantifier": "all texts, maximum sequence lengths and mini-batch sizes, all networks without bidirectional layers, all parameters", "why_tests_cant": "Mini-batch size interacts with the reader, padding, masking, evaluation and summation; equality for every text and size cannot be tested.", "anchors": ["theanolm/scoring/textscorer.py:TextScorer.compute_perplexity", "theanolm/scoring/textscorer.py:TextScorer.__init__", "theanolm/parsing/linearbatchiterator.py:LinearBatchIterator", "theanolm/parsing/batchiterator.py:BatchIterator._prepare_batch", "theanolm/training/trainer.py:Trainer._validate"]}
{"id": "C111", "title": "The score command reports the validation perplexity", "statement": "If the perplexity of a text can be computed as it is computed in validation (sequences are not cut), then the score command, run on the same text with the same model and without subword marking, writes its report without an error and the last line of the report is the same perplexity, whatever the mini-batch size in validation was. The only difference is that a word to which the network gives zero probability is left out from the report, while it is an error in validation.", "quantifier": "all texts, mini-batch sizes and log bases, all networks without bidirectional layers, all parameters", "why_tests_cant": "The two computations are implemented separately (one counts words in the scorer, the other one collects statistics after formatting); agreement on every text cannot be tested.", "anchors": ["theanolm/scoring/textscorer.py:TextScorer.compute_perplexity", "theanolm/scoring/textscorer.py:TextScorer.score_batch", "theanolm/commands/score.py:_score_text", "theanolm/commands/score.py:score", "theanolm/training/trainer.py:Trainer._validate"]}
{"id": "C112", "title": "Training with the cross-entropy cost minimises the perplexity that validation measures", "statement": "For a mini-batch of shortlist words with nonzero class membership probabilities and a network without dropout layers, the perplexity computed as in validation is exp(cost - m), where cost is the cross-entropy training cost of the mini-batch without the penalties, and m is the mean of the log class membership probabilities of the counted words, which does not depend on the network. Hence of two networks the one with the smaller cost has the smaller perplexity. The same words are counted when <unk> is excluded in training, when <unk> is not a target, or when the vocabulary has no unigram probabilities; otherwise training counts <unk> and validation does not.", "quantifier": "all training mini-batches, all networks without dropout layers, all parameters and regularization weights", "why_tests_cant": "Two separately written computations (symbolic cost of the optimizer, scorer of the text) are compared for all networks and mini-batches.", "anchors": ["theanolm/training/cost.py:CrossEntropyCost", "theanolm/training/cost.py:Cost.get_tensor", "theanolm/training/basicoptimizer.py:BasicOptimizer.__init__", "theanolm/training/basicoptimizer.py:BasicOptimizer.update_minibatch", "theanolm/scoring/textscorer.py:TextScorer.__init__", "theanolm/scoring/textscorer.py:TextScorer.compute_perplexity", "theanolm/commands/train.py:train"]}
{"id": "C113", "title": "Dropout does not change the expected outputs", "statement": "During training, the expected value of the output of every unit of a dropout layer, over its random number, is the input of the unit (the output when not training), whatever the random numbers of the other units are, and its variance is the square of the input times (1 - p) / p, where p is the probability of not dropping a unit. The probability is always positive, whatever dropout rate is given.", "quantifier": "all networks with dropout layers, all dropout rates, all mini-batches, all random numbers of the other units and layers", "why_tests_cant": "A statement about the distribution of the outputs; a test can only sample it.", "anchors": ["theanolm/network/dropoutlayer.py:DropoutLayer.__init__", "theanolm/network/dropoutlayer.py:DropoutLayer.create_structure"]}
{"id": "C114", "title": "Updates decrease the cost when the learning rate is small", "statement": "In every update, if the gradient of the cost of the mini-batch is not zero and the learning rate is small enough, the cost of the mini-batch is smaller with the updated parameters than before the update: every parameter element is moved against its partial derivative, also when the norm of the update is limited, and elements whose partial derivative is zero do not move.", "quantifier": "all optimization methods, all options in their documented ranges, all reachable optimizer states (any number of earlier updates with any gradients and learning rates), all differentiable cost functions", "why_tests_cant": "A limit statement about all differentiable costs and all update histories.", "anchors": ["theanolm/training/basicoptimizer.py:BasicOptimizer._normalize", "theanolm/training/sgdoptimizer.py:SGDOptimizer._get_param_updates", "theanolm/training/adagradoptimizer.py:AdaGradOptimizer._get_param_updates", "theanolm/training/adadeltaoptimizer.py:AdadeltaOptimizer._get_param_updates", "theanolm/training/rmspropsgdoptimizer.py:RMSPropSGDOptimizer._get_param_updates", "theanolm/training/adamoptimizer.py:AdamOptimizer._get_param_updates", "theanolm/training/nesterovoptimizer.py:NesterovOptimizer._get_param_updates", "theanolm/training/rmspropnesterovoptimizer.py:RMSPropNesterovOptimizer._get_param_updates"]}
{"id": "C115", "title": "The utterance scores add up to the reported perplexity", "statement": "If the score command finishes for a text, both when it writes the scores of the utterances and when it reports the perplexity (without subword marking), and there is at least one word in the text, then the sum of the utterance scores, converted to natural logarithms, negated, and divided by the number of predicted probabilities in the report, is the logarithm of the perplexity in the last line of the report. In particular the two outputs leave out exactly the same words.", "quantifier": "all texts and log bases, all networks without bidirectional layers, all parameters", "why_tests_cant": "The two outputs score the text differently (one line at a time, or in mini-batches of 16 lines) and leave words out by different rules; a test compares one text with a tolerance.", "anchors": ["theanolm/commands/score.py:_score_utterances", "theanolm/commands/score.py:_score_text", "theanolm/scoring/textscorer.py:TextScorer.score_line", "theanolm/scoring/textscorer.py:TextScorer.score_sequence", "theanolm/scoring/textscorer.py:TextScorer.score_batch"]}
{"id": "C116", "title": "Training and scoring agree on the perplexity of the saved model", "statement": "After training with validation data, the perplexity that the train command prints is the perplexity that the score command reports when it is given the model file that training wrote and the validation text, with the same options, on the same machine.", "quantifier": "all vocabularies, architectures, training runs, parameters, validation texts, mini-batch sizes and log bases", "why_tests_cant": "It connects two commands through a file; a test compares rounded numbers for one model, usually without --exclude-unk, and misses that the two commands treat the option differently.", "anchors": ["theanolm/commands/train.py:train", "theanolm/commands/score.py:score", "theanolm/network/network.py:Network.from_file", "theanolm/training/trainer.py:Trainer._validate", "theanolm/training/trainer.py:Trainer._set_candidate_state", "theanolm/scoring/textscorer.py:TextScorer.compute_perplexity"]}
{"id": "C117", "title": "What noise-contrastive estimation estimates", "statement": "A network that minimizes the expected noise-contrastive cost predicts, after normalization, the true distribution of the next class, for every number of noise samples.", "quantifier": "all numbers of classes and noise samples, all true distributions, all noise distributions and ways of drawing the samples, all values of epsilon", "why_tests_cant": "It is a statement about an expected value over all noise samples and about all activations; a test can only see that the cost decreases.", "anchors": ["theanolm/training/cost.py:NCECost._get_logprobs", "theanolm/backend/classdistribution.py:MultinomialDistribution.sample", "theanolm/backend/classdistribution.py:UniformDistribution.probs"]}
{"id": "C118", "title": "Momentum is Nesterov's momentum", "statement": "With the Nesterov momentum method, the parameters of the network are always the points where Nesterov's accelerated gradient method computes the gradient. With zero momentum, the momentum methods make the same updates as the corresponding methods without momentum.", "quantifier": "all parameters, gradients (as functions of the parameters), learning rate schedules, norm limits and numbers of updates", "why_tests_cant": "The equivalence of the two formulations of the method only shows over a sequence of updates with gradients that depend on the parameters; a test of single updates cannot see it.", "anchors": ["theanolm/training/nesterovoptimizer.py:NesterovOptimizer._get_param_updates", "theanolm/training/rmspropnesterovoptimizer.py:RMSPropNesterovOptimizer._get_param_updates", "theanolm/training/sgdoptimizer.py:SGDOptimizer._get_param_updates"]}
{"id": "C119", "title": "Adaptive methods bound the size of an update", "statement": "With AdaGrad, RMSProp and Adam, one update moves every element of the parameters at most by the learning rate times a number that depends only on the decay rates and momentum, however large the gradients are.", "quantifier": "all gradients, parameters, learning rates, options in their ranges and numbers of updates", "why_tests_cant": "The bound concerns all sequences of gradients; the worst case sequences do not occur in tests.", "anchors": ["theanolm/training/adagradoptimizer.py:AdaGradOptimizer._get_param_updates", "theanolm/training/rmspropsgdoptimizer.py:RMSPropSGDOptimizer._get_param_updates", "theanolm/training/rmspropnesterovoptimizer.py:RMSPropNesterovOptimizer._get_param_updates", "theanolm/training/adamoptimizer.py:AdamOptimizer._get_param_updates"]}
{"id": "C120", "title": "The training cost of a mini-batch is the mean of the costs of its sequences", "statement": "For a network without dropout and bidirectional layers, the cross-entropy cost of a training mini-batch is the mean of the costs of its sequences, each computed alone and weighted by its number of predicted words, plus the weight penalties. Consequently the cost does not depend on the order of the sequences, on the length to which they are padded, or on the padding.", "quantifier": "all constructible vocabularies, networks without dropout and bidirectional layers, mini-batches of training sequences, penalties, with and without exclusion of <unk>", "why_tests_cant": "Tests compare a few mini-batches of one network; leaking between sequences or padding shows up only with particular layers and lengths.", "anchors": ["theanolm/training/cost.py:CrossEntropyCost", "theanolm/network/network.py:Network.__init__", "theanolm/parsing/linearbatchiterator.py:LinearBatchIterator._prepare_batch"]}
{"id": "C121", "title": "Layers that the output is not computed from have no effect", "statement": "The predictions of a network depend only on the layers that its output layer is computed from: its inputs, their inputs, and so on. Any change in the other layers or in their parameters leaves every predicted probability as it was.", "quantifier": "all networks with any layers and connections, all mini-batches, training and evaluation, all parameters", "why_tests_cant": "There is no limit to the architectures that can be described; a wrong input index would show up only in an architecture where layers are skipped or shared.", "anchors": ["theanolm/network/network.py:Network.__init__", "theanolm/network/basiclayer.py:BasicLayer.__init__", "theanolm/scoring/textscorer.py:TextScorer.__init__"]}
{"id": "C122", "title": "No network gives a text a perplexity smaller than the entropy of its sentences", "statement": "The reported perplexity of a text is at least the exponential of the entropy of the sentences of the text, per word: if the text has n sentences and w words (with the sentence ends), of which a sentence that occurs c times contributes c log(n/c), the perplexity is at least exp of the sum of the contributions divided by w. In particular a text of n different sentences has a perplexity of at least n^(n/w), whatever the network and its parameters, and whatever the size of the mini-batches. With and without distributing the probability of <unk> among the words outside the shortlist.", "quantifier": "all vocabularies the program can construct, all network descriptions without bidirectional layers, all parameters, all texts, all batch sizes", "why_tests_cant": "The bound quantifies over all parameters of the network: a test can only show that some networks obey it, while a counting error (a masked or skipped word, a wrong divisor, a class probability counted twice) would make some texts look more predictable than is possible.", "anchors": ["theanolm/scoring/textscorer.py:TextScorer.compute_perplexity", "theanolm/commands/score.py:_score_text", "theanolm/parsing/batchiterator.py:BatchIterator", "theanolm/parsing/linearbatchiterator.py:LinearBatchIterator"]}
{"id": "C123", "title": "Decoding depends only on what the lattice reads", "statement": "Two lattices with the same readings, i.e. the same word sequences with the same total acoustic and language model scores, are decoded to the same hypotheses with the same scores, whatever the numbers of the nodes, the order of nodes and links, the null links, and the way how the scores are distributed among the links of a path.", "quantifier": "all lattices without cycles, all networks and vocabularies, all decoding options without pruning", "why_tests_cant": "The number of lattices with the same readings is unlimited, and the result could depend on the processing order of nodes and links, which tests with a few lattices cannot cover.", "anchors": ["theanolm/scoring/latticedecoder.py:LatticeDecoder.decode", "theanolm/scoring/latticedecoder.py:LatticeDecoder._propagate", "theanolm/scoring/lattice.py:Lattice.sorted_nodes"]}
{"id": "C124", "title": "A beam that is wide enough does not lose the best hypothesis", "statement": "Decoding with a beam always finds a hypothesis, and its first hypothesis is at least as good as every complete path that stays within the beam, i.e. no beginning of which has a score worse, by the width of the beam or more, than a path that ends at the same time or later. Thus if the best path stays within the beam, the result has the same score as without the beam.", "quantifier": "all lattices without cycles whose links do not go back in time, all networks and vocabularies, all widths of the beam", "why_tests_cant": "Pruning compares a hypothesis to the hypotheses of other nodes that have been found so far, in an order that depends on the lattice; whether the best path is lost depends on all the other paths, and the result is not even monotone in the width of the beam.", "anchors": ["theanolm/scoring/latticedecoder.py:LatticeDecoder.decode", "theanolm/scoring/latticedecoder.py:LatticeDecoder._prune", "theanolm/scoring/latticedecoder.py:LatticeDecoder._propagate", "theanolm/scoring/lattice.py:Lattice.sorted_nodes"]}
{"id": "C125", "title": "Decoding with linear interpolation finds the best path when the lattice scores depend only on the words", "statement": "When probabilities are interpolated linearly, nothing is pruned, and only hypotheses with the same words are recombined, the first hypothesis is at least as good as every complete path, provided that the language model score that a path has accumulated in a node depends only on the words of the path. Without this condition the best path may be lost.", "quantifier": "all lattices without cycles that satisfy the condition, all networks, vocabularies, weights and scales", "why_tests_cant": "With linear interpolation the total score of a hypothesis is not a sum over links: the hypothesis that is better in the middle of the lattice may be worse at the end. Whether recombination may discard it depends on all the pairs of paths of the lattice.", "anchors": ["theanolm/scoring/latticedecoder.py:LatticeDecoder.decode", "theanolm/scoring/latticedecoder.py:LatticeDecoder.Token.recompute_total", "theanolm/backend/probfunctions.py:interpolate_linear"]}
{"id": "C126", "title": "The number of normal classes excludes exactly the special classes at the end", "statement": "For every vocabulary, the classes numbered from the number of normal classes on are exactly the longest sequence of classes at the end of the class list that have one word that starts with '<'. Every shortlist word that does not start with '<' is in a normal class.", "quantifier": "all vocabularies that can be constructed, from files of any format, from word counts or from a model file", "why_tests_cant": "The number depends on the order in which classes were created and on the names of the words, including user words that start with '<'.", "anchors": ["theanolm/vocabulary/vocabulary.py:Vocabulary.__init__"]}
{"id": "C127", "title": "A limit on the number of hypotheses that is large enough does not lose the best hypothesis", "statement": "When the maximum number of tokens per node is at least the number of different word sequences (as told apart by recombination) that lead to any node of the lattice, decoding succeeds, the first hypothesis is at least as good as every complete path, and its score is the same as without the limit. In particular, the pruning that is done in the middle of processing the links does not lose it either.", "quantifier": "all lattices without cycles, all networks, vocabularies, recombination orders and limits", "why_tests_cant": "Tokens are pruned also before all tokens have arrived in the node, when there are more than twice the maximum number, before recombination; whether the best path survives depends on the interplay of recombination and pruning in every node.", "anchors": ["theanolm/scoring/latticedecoder.py:LatticeDecoder.decode", "theanolm/scoring/latticedecoder.py:LatticeDecoder._prune", "theanolm/scoring/latticedecoder.py:LatticeDecoder._sorted_recombined_tokens"]}
{"id": "C128", "title": "Text is generated with the probability that text scoring gives to it", "statement": "The probability that all the generated sequences begin with given words is the product of the conditional probabilities whose logarithms are the scores that text scoring gives to the words after the seed. In particular, the probability that the sampler writes a sentence that fits in the requested length is the exponential of the log probability that text scoring gives to the sentence.", "quantifier": "all vocabularies and classes, all network descriptions and parameters, all seeds, lengths, numbers of sequences and word sequences", "why_tests_cant": "It is a statement about a probability distribution over all word sequences, which compares two implementations of the network (step by step and whole sequences) and two ways of using class membership probabilities; a finite number of samples can only give an estimate.", "anchors": ["theanolm/textsampler.py:TextSampler.generate", "theanolm/commands/sample.py:sample", "theanolm/scoring/textscorer.py:TextScorer.score_sequence", "theanolm/vocabulary/wordclass.py:WordClass.sample"]}
{"id": "C129", "title": "A network that has not been trained predicts the unigram distribution of the classes", "statement": "When a network with a softmax output layer has just been created for training, the log probability that it gives to the class of any word after any preceding words differs from the logarithm of the smoothed relative frequency of the class in the training data by at most twice the number of inputs of the output layer times a bound on its inputs times a bound on its weights. The inputs are bounded by one if they come from GRU layers or from LSTM layers with tanh activation.", "quantifier": "all vocabularies, unigram probabilities, network descriptions, initial weights, preceding words and predicted words", "why_tests_cant": "Tests can only run a few networks on a few sentences with the weights that the random number generator gives; an error in the initial biases is not visible after training.", "anchors": ["theanolm/network/softmaxlayer.py:SoftmaxLayer.__init__", "theanolm/training/trainer.py:Trainer.__init__", "theanolm/vocabulary/vocabulary.py:Vocabulary.get_class_probs", "theanolm/network/softmaxlayer.py:SoftmaxLayer.create_structure"]}
{"id": "C130", "title": "No probability is lost in texts that do not end", "statement": "The probabilities that text scoring gives to all sentences of shortlist words, of any length, sum to exactly one, and the probability of the sentences of at least n words is at most (1 - d)^n for a positive d that depends only on the network and the vocabulary. When text is generated, the probability that a generated sequence has no end of sentence decreases exponentially with the requested length, whatever the seed is.", "quantifier": "all vocabularies, classes, network descriptions and parameters, seeds, lengths, numbers of sequences; all sentences (an infinite sum)", "why_tests_cant": "The sum has infinitely many terms, and no test can show that arbitrarily long texts have a vanishing probability; a network that never ends a sentence gives plausible scores to every test sentence.", "anchors": ["theanolm/scoring/textscorer.py:TextScorer.score_sequence", "theanolm/textsampler.py:TextSampler.generate", "theanolm/network/network.py:Network.__init__", "theanolm/network/lstmlayer.py:LSTMLayer._create_time_step"]}
{"id": "C131", "title": "The best path of a rescored lattice is the best hypothesis", "statement": "The language model scores of a rescored lattice are the interpolated scores: up to a common scale factor, the score of every complete path of the rescored lattice is the total score that the decoder gave to the hypothesis with the same words, and therefore the best path of the rescored lattice is the first hypothesis of the decoder.", "quantifier": "all determinized lattices, networks, vocabularies and interpolation weights", "why_tests_cant": "The scores of the paths are spread over the links and put together again; whether the sum agrees with the interpolated score depends on the weight, which a test with one weight or with equal lattice scores does not show.", "anchors": ["theanolm/scoring/rescoredlattice.py:RescoredLattice.__init__", "theanolm/scoring/latticedecoder.py:LatticeDecoder.Token.recompute_total"]}
{"id": "C132", "title": "What BlackOut estimates", "statement": "A network that minimizes the expected BlackOut cost of the words that follow a context gives exactly the true probabilities of the words, whatever the noise distribution and the number of noise samples are, although the cost does not normalize the probabilities. Conversely, a network that gives the true probabilities minimizes the cost.", "quantifier": "all numbers of classes and noise samples, all distributions of words and noise with positive probabilities", "why_tests_cant": "The cost of one word is random; that the minimum of its expected value is at the true probabilities is a statement about the sum over all words and noise samples, with infinitely many networks to compare to.", "anchors": ["theanolm/training/cost.py:BlackoutCost._get_logprobs"]}
{"id": "C133", "title": "SLF lattices mean the same in any base of logarithms", "statement": "If two SLF files differ only in the base in which the scores are given, so that every acoustic score, language model score and the word insertion penalty stand for the same probability, they are read as the same lattice, or rejected with the same error. A file that does not declare a base contains natural logarithms, and base zero means that the file contains probabilities. The position of the declaration in the header does not matter, not even with respect to the word insertion penalty.", "quantifier": "all files and bases", "why_tests_cant": "All pairs of bases and positions of the declaration in the header; the unit tests have one lattice for some of the bases.", "anchors": ["theanolm/scoring/slflattice.py:SLFLattice.__init__", "theanolm/scoring/slflattice.py:SLFLattice._read_slf_header", "theanolm/scoring/slflattice.py:SLFLattice._read_slf_link"]}
{"id": "C134", "title": "New networks have orthogonal weights", "statement": "In a newly created network every weight that is a square matrix is orthogonal: multiplying by it preserves the norm of the input vector, and the weight vectors of the units are orthonormal to one another. For a recurrent layer this holds separately for each gate and for the candidate state: the previous hidden state contributes to each of them with the norm that it has. The same holds for the weights of the layer input when the input and the layer have the same size, for both halves of a highway layer, and for fully connected, projection and output layers with as many inputs as outputs.", "quantifier": "all architectures, sizes, inputs and random numbers", "why_tests_cant": "The weights are random and the sizes are unbounded; norms of all input vectors.", "anchors": ["theanolm/network/weightfunctions.py:random_matrix", "theanolm/network/weightfunctions.py:random_orthogonal_matrix", "theanolm/network/basiclayer.py:BasicLayer._init_weight"]}
{"id": "C135", "title": "Decoding succeeds and finds the best path with any combination of pruning options", "statement": "Decoding an acyclic lattice succeeds with any combination of a beam, a limit on the number of hypotheses in a node, and the relative tightening of both, exactly when the lattice has a final node, the relative limit is not zero, and the limit on the number of hypotheses (after tightening) is not zero; no beam, however narrow, and no time stamps make it fail. If no more different (recent) word sequences lead to any node than the effective limit, the first hypothesis is at least as good as every complete path that stays within the effective beam, and if a best path does, a best path is found.", "quantifier": "all acyclic lattices, networks, scales and pruning options", "why_tests_cant": "Pruning happens at every node and in the middle of propagating tokens, and what is pruned depends on all the scores seen so far; tests use a few lattices and options.", "anchors": ["theanolm/scoring/latticedecoder.py:LatticeDecoder.decode", "theanolm/scoring/latticedecoder.py:LatticeDecoder._prune", "theanolm/scoring/latticedecoder.py:LatticeDecoder._propagate"]}
{"id": "C136", "title": "A vocabulary in a model file is read as it is or rejected", "statement": "Whatever words, class IDs, membership probabilities and unigram probabilities a model file contains, reading the vocabulary succeeds exactly if there are classes, every class ID up to the largest one has a word with a probability, there are no more probabilities than class IDs, the three special tokens are among the words, and the number of unigram probabilities (if there are any) is the number of words; a file without words, class IDs or probabilities is reported as incompatible. The vocabulary that has been read has the words, the class IDs and the unigram probabilities of the file, and the membership probability of a word is its probability in the file divided by the sum over its class, so that they sum to one in each class.", "quantifier": "all contents of the vocabulary group of a model file", "why_tests_cant": "Tests read files that the same program has written; a file from another version or a damaged file can contain any combination of lists.", "anchors": ["theanolm/vocabulary/vocabulary.py:Vocabulary.from_state", "theanolm/vocabulary/vocabulary.py:Vocabulary.__init__", "theanolm/vocabulary/wordclass.py:WordClass.normalize_probs"]}
{"id": "C137", "title": "The sampling-based costs never mix the positions of a mini-batch", "statement": "For any number of time steps, sequences, features, classes and noise samples, and whether the noise words are drawn for each word, shared between the sequences or shared by the whole mini-batch: the noise-contrastive and the BlackOut cost computed with tensors is, in each position, the formula of the cost for the target word of that position and the noise words that belong to it, each scored with the input vector of that position, and the weights and bias of the word. The result in a position thus does not depend on the other positions, on the size of the mini-batch, or on how the noise is shared. A target class that does not exist raises an IndexError.", "quantifier": "all shapes, parameters, inputs, targets, noise distributions, samples and ways of sharing", "why_tests_cant": "A wrong axis or an unintended broadcast gives a tensor of the right shape for particular sizes (such as one sequence), and the cost is a random variable, so that a wrong value is not noticed.", "anchors": ["theanolm/network/samplingoutputlayer.py:SamplingOutputLayer", "theanolm/training/cost.py:NCECost._get_logprobs", "theanolm/training/cost.py:BlackoutCost._get_logprobs", "theanolm/network/network.py:Network.noise_sample"]}
{"id": "C138", "title": "Networks with disconnected layers cannot be trained, unless the cost is regularized", "statement": "Training starts exactly when the output of the network is computed from every layer that has something to train (that is, every layer except the network inputs, dropout layers, and addition layers whose inputs all have the size of the layer), or when L1 or L2 regularization has been requested. Otherwise the train command prints a message that names a parameter of a layer that the output is not computed from, and ends in an error without training. Nothing is printed about a network that can be trained.", "quantifier": "all architecture descriptions that a network can be created from, all environments, regularization options", "why_tests_cant": "Tests use the few architectures that come with the program, where everything is connected. The path that is taken after the error has been caught is never executed.", "anchors": ["theanolm/commands/train.py:train", "theanolm/training/basicoptimizer.py:BasicOptimizer.__init__", "theanolm/training/cost.py:Cost.get_tensor", "theanolm/network/network.py:Network.get_variables"]}
{"id": "C139", "title": "Decoding and text generation are possible exactly without bidirectional and convolution layers", "statement": "With a model that can be used for scoring text, the next words of any nonempty collection of hypotheses can be scored in lattice decoding exactly when the network does not have bidirectional or gated convolution layers, whatever the other layers, the parameters and the histories are. Generating text with a network that has such a layer is an error, and never gives text that is sampled from a wrong distribution.", "quantifier": "all networks created from architecture descriptions, all parameters, vocabularies, histories, seeds, numbers of sequences", "why_tests_cant": "That no layer silently computes its output from one word only, and that no other layer fails, concerns all combinations of layers.", "anchors": ["theanolm/network/glulayer.py:GLULayer.create_structure", "theanolm/network/lstmlayer.py:LSTMLayer.create_structure", "theanolm/network/grulayer.py:GRULayer.create_structure", "theanolm/scoring/latticedecoder.py:LatticeDecoder", "theanolm/textsampler.py:TextSampler.generate"]}
{"id": "C140", "title": "The architectures that come with the program work with every vocabulary", "statement": "Whatever the vocabulary is, the architectures lstm300 and lstm1500 that come with the program can be read and a network can be created from them. Its layers have the sizes that are written in the files, every layer can process the output of its inputs, and the output layer gives a probability to each class of the vocabulary. An optimizer can be created for it with and without regularization, so no parameter is disconnected from the output. With any values of the parameters the network can be used one word at a time, as is needed for decoding lattices and generating text. A file of the user that has the same name is not read.", "quantifier": "all vocabularies, all initial and trained parameters, all files of the user, all regularization weights, all hypotheses in decoding", "why_tests_cant": "The vocabularies and the values of the parameters cannot be enumerated; a test with one vocabulary does not tell whether the sizes fit for another.", "anchors": ["theanolm/network/architecture.py:Architecture.from_package", "theanolm/network/architecture.py:Architecture.from_description", "theanolm/commands/train.py:train", "theanolm/network/network.py:Network.__init__", "theanolm/architectures/lstm300.arch", "theanolm/architectures/lstm1500.arch"]}
{"id": "C141", "title": "The reported number of parameters is right", "statement": "The number of parameters that is reported for a network is the sum of what each layer requires: for example, a fully connected layer has a weight for each pair of an input and an output and a bias for each output, and an LSTM layer has four such sets of weights from the inputs and its own previous output. The number does not depend on how many devices the parameters are divided to. It does not change in training, and it is the number of values that a new model file has for the layers. The packaged architecture lstm300 has 401 parameters per class and 571500 others, and lstm1500 has 2001 parameters per class and 15007500 others.", "quantifier": "all network architectures that can be created, all layer sizes, all vocabularies, all devices, all values of the parameters", "why_tests_cant": "The architectures and the sizes cannot be enumerated; a test with one device does not tell whether parts on other devices are counted.", "anchors": ["theanolm/network/network.py:Network.__init__", "theanolm/network/basiclayer.py:BasicLayer.num_params", "theanolm/network/bidirectionallayer.py:BidirectionalLayer.num_params", "theanolm/backend/parameters.py:Parameters.add", "theanolm/network/network.py:Network.get_state"]}
{"id": "C142", "title": "Vectors are initialized to the values that were given", "statement": "A vector that is initialized without a value is zero, and with a number each of its elements is the number. With an array it is the array. With a list of numbers or arrays it is the concatenation of as many vectors of the given size, where each vector is filled with the number, or is the array.", "quantifier": "all sizes, all numbers and arrays, lists of any length", "why_tests_cant": "The lists and the arrays cannot be enumerated; the lists that the layers use have no arrays, so a test of the layers does not show the failure.", "anchors": ["theanolm/network/weightfunctions.py:matrix_from_value", "theanolm/network/basiclayer.py:BasicLayer._init_bias"]}
{"id": "C143", "title": "Compressed text files are read as the text in them", "statement": "A text file whose name ends in .gz is read as the text that has been compressed in it: the words that are counted when creating a vocabulary and the sentences that are used in training are the same as when the file is first decompressed.", "quantifier": "all files, all contents, any functions that satisfy the contract of UTF-8 decoding and decompression", "why_tests_cant": "The failure depends only on whether the file is compressed, but that it happens with every compressed file, and that no file that is not compressed has such a problem, cannot be seen from examples.", "anchors": ["theanolm/backend/filetypes.py:TextFileType.__call__", "theanolm/parsing/shufflingbatchiterator.py:SentencePointers.__init__", "theanolm/parsing/shufflingbatchiterator.py:ShufflingBatchIterator._readline", "theanolm/parsing/functions.py:utterance_from_line", "theanolm/vocabulary/statistics.py:compute_word_counts"]}
{"id": "C144", "title": "Test values have the documented range", "statement": "The values that are generated for debugging a variable have the requested dimensions, and they are random numbers from zero to the given maximum: less than the maximum for integers and floating point numbers, and False or True for booleans. The size can be an integer or a tuple. A maximum of another type is an error.", "quantifier": "all dimensions, all maximum values, all outcomes of the random generator", "why_tests_cant": "The values are random: a test sees one outcome of the random generator. That the boolean values are never True is a statement about all of them.", "anchors": ["theanolm/backend/matrixfunctions.py:test_value"]}
{"id": "C145", "title": "Dividing decoding into jobs does not change what is written", "statement": "When lattices are decoded in several jobs using --num-jobs and --job, each job finishes if and only if decoding all of them in one job finishes, and the jobs together write what the one job would write: job I writes, in order, what is written for the lattice files I, I + J, I + 2J and so on, and for each file this is what decoding only that file would write.", "quantifier": "all lists of lattice files, all contents, both formats, all networks and decoding options, all output formats, all numbers of jobs", "why_tests_cant": "The number of lattices and jobs is not bounded, and a test compares the output for one division. The disagreement shows only in lattices without an utterance ID.", "anchors": ["theanolm/commands/decode.py:decode", "theanolm/scoring/latticebatch.py:LatticeBatch.__init__", "theanolm/scoring/latticebatch.py:LatticeBatch.__iter__"]}
{"id": "C146", "title": "The perplexity of several files is between the perplexities of the files", "statement": "When the perplexity of two sets of validation or evaluation files is computed, the cross entropy (logarithm of the perplexity) of all the files together is the mean of the cross entropies of the two sets, weighted by the numbers of the words that are included. The perplexity of all the files is thus between the two perplexities, strictly if they are different. Files that have no words that are included do not change the perplexity, and if the perplexity of either set does not exist because a word has zero probability, then neither does the perplexity of all the files.", "quantifier": "all sets of files, all contents, all maximum sequence lengths, all sizes of mini-batches, all vocabularies and networks without bidirectional layers", "why_tests_cant": "The number of files, lines and mini-batches is not bounded, and a mini-batch may contain sequences from several files; a test sees a few of the possible divisions.", "anchors": ["theanolm/scoring/textscorer.py:TextScorer.compute_perplexity", "theanolm/parsing/linearbatchiterator.py:LinearBatchIterator"]}
{"id": "C147", "title": "Dividing a text into parts does not change the scores of its utterances", "statement": "When a text is divided into any number of parts at the ends of lines, and the parts are scored separately with --output utterance-scores, the outputs of the parts, concatenated, are the output for the whole text. Scoring the whole text finishes if and only if scoring every part finishes; if scoring a part fails, scoring the whole text fails with the same error after the same output.", "quantifier": "all texts and divisions to parts, all vocabularies and networks, all logarithm bases", "why_tests_cant": "The number of lines and the ways to divide them are not bounded; includes the lines on which scoring fails.", "anchors": ["theanolm/commands/score.py:score", "theanolm/commands/score.py:_score_utterances", "theanolm/scoring/textscorer.py:TextScorer.score_line"]}
{"id": "C148", "title": "The order of the training text does not change the word counts or the vocabulary", "statement": "When the lines of the training text are put into another order, or divided to files in another way, the counts of all words are the same, the probabilities computed from them to a given vocabulary are the same, and the vocabulary created from them gives the same word IDs. The counts in two texts together are the sums of the counts in the texts.", "quantifier": "all texts, orders of lines, divisions to files, vocabularies and numbers of classes", "why_tests_cant": "The number of orders grows as the factorial of the number of lines, and ties between words are needed to see the difference in word IDs.", "anchors": ["theanolm/vocabulary/statistics.py:compute_word_counts", "theanolm/vocabulary/vocabulary.py:Vocabulary.from_word_counts", "theanolm/vocabulary/vocabulary.py:Vocabulary.compute_probs"]}
{"id": "C149", "title": "The order of the training text does not change the word classes", "statement": "When the lines of the training text are put into another order, or divided to files in another way, the statistics of words and pairs of words are the same, and wctool writes exactly the same output, or fails for both.", "quantifier": "all texts, orders of lines, divisions to files, vocabulary files, output formats, saving frequencies and both implementations of the optimizer", "why_tests_cant": "The number of orders grows as the factorial of the number of lines, and the optimization has no bound on the number of iterations.", "anchors": ["theanolm/vocabulary/statistics.py:BigramStatistics", "wordclasses/wctool.py:main", "theanolm/vocabulary/vocabulary.py:Vocabulary.from_word_counts"]}
{"id": "C150", "title": "The order of the lines does not change the perplexity", "statement": "When the lines of a text are put into another order, divided to files in another way, or read in mini-batches of another size, the perplexity that is computed is the same, or there is none in both cases for the same reason. The network is assumed to have no bidirectional layers.", "quantifier": "all texts of complete lines, orders of lines, divisions to files, mini-batch sizes and maximum lengths of sequences, all vocabularies and networks without bidirectional layers", "why_tests_cant": "The number of orders grows as the factorial of the number of lines; rounding hides or imitates small differences in a test.", "anchors": ["theanolm/scoring/textscorer.py:TextScorer.compute_perplexity", "theanolm/parsing/linearbatchiterator.py:LinearBatchIterator", "theanolm/parsing/batchiterator.py:BatchIterator"]}
