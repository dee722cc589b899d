import Verif.Props.WordCountOrder
import Verif.Props.WordClassFile
/-!
# The order of the training text and the word classes: C149
-/
namespace TheanoLM

/-! ## Specification -/

/-- wctool, started with the given files, vocabulary file, number of classes, implementation, output format and saving
frequency, ends without an error, and changes the output file `f` to `f'`. -/
def ClassesWritten (P : Parsers) (showProb : ℚ → Str) (files : List (List Str)) (vocabulary : Option (List Str × VocFormat))
    (numClasses : Nat) (b : Backend) (fmt : VocFormat) (freq : Nat) (f f' : OutFile) : Prop :=
  ∃ cfg s0 fuel s, wctoolOptimizer P files vocabulary numClasses b = .ok (cfg, s0) ∧
    wctoolLoop showProb fmt freq cfg fuel s0 f = some (.ok (s, f'))

/-! ## Lemmas -/

theorem wctoolOptimizer_parsers (P P' : Parsers) (files : List (List Str)) (n : Nat) (b : Backend) :
    wctoolOptimizer P files none n b = wctoolOptimizer P' files none n b := rfl

theorem classLine_head (showProb : ℚ → Str) (x : Char) (e : Nat × ℚ) :
    ∃ rest, classLine showProb .classes ([x], e) = x :: rest := by
  unfold classLine
  generalize decimal e.1 = d
  exact ⟨' ' :: d ++ ['\n'], rfl⟩

theorem classText_head (showProb : ℚ → Str) (cfg : OptCfg) (s : OptSt) (x : Char) (ws : List Str)
    (h : cfg.vocab.idToWord = [x] :: ws) : ∃ rest, classText showProb .classes cfg s = x :: rest := by
  have key : ∀ (l : List (Str × Nat × ℚ)) (e : Nat × ℚ),
      ∃ rest, ((([x], e) :: l).map (classLine showProb .classes)).flatten = x :: rest := by
    intro l e
    obtain ⟨rest, hr⟩ := classLine_head showProb x e
    rw [List.map_cons, hr, List.flatten_cons, List.cons_append]
    exact ⟨_, rfl⟩
  unfold classText optWords
  rw [h, List.zipIdx_cons, List.map_cons]
  exact key _ _

/-- Outputs that begin with different words are different. -/
theorem classesWritten_ne (P : Parsers) (showProb : ℚ → Str) (b : Backend) (freq : Nat) (old : Str) (n : Nat)
    (files files' : List (List Str)) (x y : Char) (ws ws' : List Str) (hxy : x ≠ y)
    (h : ∃ cs, wctoolOptimizer P files none n b = .ok cs ∧ cs.1.vocab.idToWord = [x] :: ws)
    (h' : ∃ cs, wctoolOptimizer P files' none n b = .ok cs ∧ cs.1.vocab.idToWord = [y] :: ws') :
    ∃ f f', ClassesWritten P showProb files none n b .classes freq ⟨true, old⟩ f ∧
      ClassesWritten P showProb files' none n b .classes freq ⟨true, old⟩ f' ∧ f ≠ f' := by
  obtain ⟨⟨cfg, s0⟩, a1, a2⟩ := h
  obtain ⟨⟨cfg', s0'⟩, b1, b2⟩ := h'
  obtain ⟨N, s, f, h2, -, h3, -⟩ := wctoolRun a1 showProb .classes freq ⟨true, old⟩
  obtain ⟨N', s', f', h2', -, h3', -⟩ := wctoolRun b1 showProb .classes freq ⟨true, old⟩
  refine ⟨f, f', ⟨cfg, s0, N, s, a1, h2 N (le_refl _)⟩, ⟨cfg', s0', N', s', b1, h2' N' (le_refl _)⟩, ?_⟩
  intro e
  have g3 := h3 rfl
  have g3' := h3' rfl
  obtain ⟨r, hr⟩ := classText_head showProb cfg s x ws a2
  obtain ⟨r', hr'⟩ := classText_head showProb cfg' s' y ws' b2
  rw [hr] at g3
  rw [hr', ← e, g3] at g3'
  exact hxy (List.cons.inj g3').1

/-! ## Properties -/

/-- C149: the statistics of texts of the same lines are the same. -/
theorem C149_statistics (v : Vocab) (files files' : List (List Str)) (h : SameLines files files') :
    bigramStatistics v files = bigramStatistics v files' := by
  rcases hu : v.wordToId unk with _ | unkId
  · unfold bigramStatistics
    rw [hu]
  · rw [bigramStatistics_eq v files unkId hu, bigramStatistics_eq v files' unkId hu]
    have hp := h.map (idsOfLine v unkId)
    unfold statsOf
    congr 2
    · funext a
      rw [hp.flatten.count_eq]
    · funext a b
      rw [(hp.map (pairCount a b)).sum_eq]

/-- C149: with a vocabulary file, wctool writes the same output for texts of the same lines, or fails for both. -/
theorem C149_file (P : Parsers) (showProb : ℚ → Str) (files files' : List (List Str)) (h : SameLines files files')
    (lines : List Str) (lfmt : VocFormat) (n : Nat) (b : Backend) (fmt : VocFormat) (freq : Nat) (f f' : OutFile) :
    ClassesWritten P showProb files (some (lines, lfmt)) n b fmt freq f f' ↔
      ClassesWritten P showProb files' (some (lines, lfmt)) n b fmt freq f f' := by
  have e : wctoolOptimizer P files (some (lines, lfmt)) n b = wctoolOptimizer P files' (some (lines, lfmt)) n b := by
    unfold wctoolOptimizer
    simp only [C149_statistics _ files files' h]
  unfold ClassesWritten
  rw [e]

/-- C149: without a vocabulary file, wctool writes the same output for texts of the same lines, if no two words are equally
frequent.  What is missing: equally frequent words, for which the output is different (`C149_violated`). -/
theorem C149_created_partial (P : Parsers) (showProb : ℚ → Str) (files files' us : List (List Str))
    (h : SameLines files files') (hu : UtterancesOf files us) (hd : NoTies us) (n : Nat) (b : Backend) (fmt : VocFormat)
    (freq : Nat) (f f' : OutFile) :
    ClassesWritten P showProb files none n b fmt freq f f' ↔ ClassesWritten P showProb files' none n b fmt freq f f' := by
  have e : wctoolOptimizer P files none n b = wctoolOptimizer P files' none n b := by
    unfold wctoolOptimizer
    simp only [C148_vocabulary_partial files files' us h hu hd, C149_statistics _ files files' h]
  unfold ClassesWritten
  rw [e]

/-- The hypotheses are met, and wctool writes an output. -/
example (b : Backend) : ∃ us f', UtterancesOf [["a b b\n".toList]] us ∧ NoTies us ∧
    ClassesWritten exParsers unary.showScore [["a b b\n".toList]] none 2 b .classes 0 ⟨true, []⟩ f' := by
  have key : ∃ cs, wctoolOptimizer exParsers [["a b b\n".toList]] none 2 b = .ok cs ∧ cs.1.backend = b := by
    cases b <;> decide +kernel
  obtain ⟨⟨cfg, s0⟩, h1, -⟩ := key
  obtain ⟨N, s, f', h2, -⟩ := wctoolRun h1 unary.showScore .classes 0 ⟨true, []⟩
  have h3 : NoTies ((([["a b b\n".toList]] : List (List Str)).flatten).map utterance) := by unfold NoTies; decide +kernel
  exact ⟨_, f', utterancesOf_exists _, h3, cfg, s0, N, s, h1, h2 N (le_refl _)⟩

/-- C149 is violated: for a text of the lines `a` and `b` wctool writes an output, and when the lines change places, it writes
another output. -/
theorem C149_violated (P : Parsers) (showProb : ℚ → Str) (b : Backend) (freq : Nat) (old : Str) :
    ∃ files files' : List (List Str), SameLines files files' ∧ ∃ f f',
      ClassesWritten P showProb files none 1 b .classes freq ⟨true, old⟩ f ∧
      ClassesWritten P showProb files' none 1 b .classes freq ⟨true, old⟩ f' ∧ f ≠ f' := by
  refine ⟨[["a\n".toList, "b\n".toList]], [["b\n".toList, "a\n".toList]], by unfold SameLines; exact List.Perm.swap _ _ _, ?_⟩
  refine classesWritten_ne P showProb b freq old 1 _ _ 'a' 'b' ["b".toList, sos, eos, unk] ["a".toList, sos, eos, unk]
    (by decide) ?_ ?_
  · rw [wctoolOptimizer_parsers P exParsers]
    cases b <;> decide +kernel
  · rw [wctoolOptimizer_parsers P exParsers]
    cases b <;> decide +kernel

end TheanoLM
