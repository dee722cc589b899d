import Verif.Props.PerplexityEntropy
/-!
# The perplexity of several files together (C146)
-/
set_option linter.unusedSectionVars false

namespace TheanoLM

section
variable {S : Type} [Field S] [LinearOrder S] [IsStrictOrderedRing S]

/-- Computing the perplexity of the files, in mini-batches of `B` sequences, finishes with the given result. -/
def Scorer.FilesGive (sc : Scorer S) (files : List Str) (B : Nat) (maxLen : Option Nat) (r : Except Err (Flt S)) : Prop :=
  ∃ N, ∀ fuel, N ≤ fuel → sc.filePerplexity files ⟨B, maxLen⟩ fuel = some r

/-- The number of words in the files that are included in the perplexity. -/
def Scorer.NumIncluded (sc : Scorer S) (files : List Str) (maxLen : Option Nat) (n : Nat) : Prop :=
  ∃ (ss : List (List Tok)) (scores : List (List (Flt S))), Sequences files maxLen ss ∧ List.Forall₂ (SequenceScored sc) ss scores ∧ n = (scores.map List.length).sum

theorem nextLoop_fuel {σ : Type} (src : Source σ) (cfg : IterCfg) : ∀ (fuel fuel' : Nat), fuel ≤ fuel' → ∀ (seqs : List (List Tok))
    (st : IterSt σ) (r : Option (List (List Tok)) × IterSt σ), nextLoop src cfg fuel seqs st = some r →
    nextLoop src cfg fuel' seqs st = some r := by
  intro fuel
  induction fuel with
  | zero => intro _ _ _ _ _ h; cases h
  | succ n ih =>
    intro fuel' hle seqs st r h
    obtain ⟨m, rfl⟩ : ∃ m, fuel' = m + 1 := ⟨fuel' - 1, by omega⟩
    unfold nextLoop at h ⊢
    rcases hq : readSequence src cfg st with ⟨_ | q, st'⟩ <;> rw [hq] at h
    · exact h
    · simp only at h ⊢
      split
      · rename_i hq
        rw [if_pos hq] at h
        exact ih m (by omega) _ _ _ h
      · rename_i hq
        rw [if_neg hq] at h
        split
        · rename_i hb
          rwa [if_pos hb] at h
        · rename_i hb
          rw [if_neg hb] at h
          exact ih m (by omega) _ _ _ h

theorem runPass_fuel {σ : Type} (src : Source σ) (cfg : IterCfg) {fuel fuel' : Nat} (hf : fuel ≤ fuel') : ∀ (n n' : Nat), n ≤ n' →
    ∀ (st : IterSt σ) (r : List (List (List Tok)) × IterSt σ), runPass src cfg fuel n st = some r →
    runPass src cfg fuel' n' st = some r := by
  intro n
  induction n with
  | zero => intro _ _ _ _ h; cases h
  | succ n ih =>
    intro n' hle st r h
    obtain ⟨m, rfl⟩ : ∃ m, n' = m + 1 := ⟨n' - 1, by omega⟩
    unfold runPass at h ⊢
    have hnext : ∀ x, next src cfg fuel st = some x → next src cfg fuel' st = some x := by
      intro x hx
      unfold next at hx ⊢
      split
      · rename_i he
        rwa [if_pos he] at hx
      · rename_i he
        rw [if_neg he] at hx
        exact nextLoop_fuel src cfg fuel fuel' hf _ _ _ hx
    cases hn : next src cfg fuel st with
    | none => rw [hn] at h; cases h
    | some x =>
      rw [hn] at h
      rw [hnext x hn]
      obtain ⟨_ | b, st'⟩ := x
      · exact h
      · simp only at h ⊢
        cases hr : runPass src cfg fuel n st' with
        | none => rw [hr] at h; cases h
        | some y =>
          rw [hr] at h
          rw [ih m (by omega) st' y hr]
          exact h

/-- It is enough to find the result with some number of steps. -/
theorem filesGive_of {sc : Scorer S} {files : List Str} {B : Nat} {m : Option Nat} {r : Except Err (Flt S)} (N : Nat)
    (h : sc.filePerplexity files ⟨B, m⟩ N = some r) : sc.FilesGive files B m r := by
  refine ⟨N, fun fuel hf => ?_⟩
  unfold Scorer.filePerplexity at h ⊢
  cases hr : runPass (linearSource files) ⟨B, m⟩ N N linearInit with
  | none => rw [hr] at h; cases h
  | some x =>
    rw [hr] at h
    rw [runPass_fuel _ _ hf N fuel hf _ _ hr]
    exact h

theorem filesGive_unique {sc : Scorer S} {files : List Str} {B : Nat} {m : Option Nat} {r r' : Except Err (Flt S)}
    (h : sc.FilesGive files B m r) (h' : sc.FilesGive files B m r') : r = r' := by
  obtain ⟨N, hN⟩ := h
  obtain ⟨N', hN'⟩ := h'
  exact Option.some.inj ((hN (max N N') (le_max_left _ _)).symm.trans (hN' (max N N') (le_max_right _ _)))

/-- The scores of the words of two lists of files. -/
theorem combined_scores {P : Parsers} {sc : Scorer S} (h : sc.Proper P) (hi : sc.BatchIndependent) (hn : sc.NonPositive)
    (files files' : List Str) (maxLen : Option Nat) (hm : maxLen ≠ some 0) :
    ∃ (scores scores' : List (List (Flt S))) (r r' u : Except Err (Flt S)), PerplexityOf sc.exp scores.flatten r ∧ PerplexityOf sc.exp scores'.flatten r' ∧
      PerplexityOf sc.exp (scores.flatten ++ scores'.flatten) u ∧
      sc.NumIncluded files maxLen scores.flatten.length ∧ sc.NumIncluded files' maxLen scores'.flatten.length ∧
      ∀ B, 0 < B → sc.FilesGive files B maxLen r ∧ sc.FilesGive files' B maxLen r' ∧ sc.FilesGive (files ++ files') B maxLen u := by
  obtain ⟨ss, hs, _⟩ := sequences_exist_unique files maxLen hm
  obtain ⟨ss', hs', _⟩ := sequences_exist_unique files' maxLen hm
  obtain ⟨su, hsu, _⟩ := sequences_exist_unique (files ++ files') maxLen hm
  obtain ⟨scores, r, h1, h2, h3⟩ := C110_perplexity P sc h hi hn files maxLen hm ss hs
  obtain ⟨scores', r', h1', h2', h3'⟩ := C110_perplexity P sc h hi hn files' maxLen hm ss' hs'
  obtain ⟨scoresU, u, g1, g2, g3⟩ := C110_perplexity P sc h hi hn (files ++ files') maxLen hm su hsu
  have a1 := scored_of_words h1
  have a1' := scored_of_words h1'
  have b1 := scored_of_words g1
  rw [sequences_words maxLen hm files ss hs] at a1
  rw [sequences_words maxLen hm files' ss' hs'] at a1'
  rw [sequences_words maxLen hm (files ++ files') su hsu, List.flatMap_append] at b1
  have hu : scoresU = scores ++ scores' := by
    refine forall₂_unique (fun ws xs ys hx hy => ?_) b1 (List.rel_append a1 a1')
    obtain ⟨ids, c1, c2⟩ := hx
    obtain ⟨ids', c1', c2'⟩ := hy
    have : ids = ids' := forall₂_unique (R := IdOf sc.vocab false sc.unkId)
      (fun _ _ _ a b => idOf_unique (constructible_nodup h.vocab) a b) c1 c1'
    subst this
    exact includedScores_unique c2 c2'
  subst hu
  rw [List.flatten_append] at g2
  exact ⟨scores, scores', r, r', u, h2, h2', g2, ⟨ss, scores, hs, h1, List.length_flatten⟩,
    ⟨ss', scores', hs', h1', List.length_flatten⟩, fun B hB => ⟨h3 B hB, h3' B hB, g3 B hB⟩⟩

theorem perplexityOf_error {exp : S → S} {l : List (Flt S)} {r : Except Err (Flt S)} (h : PerplexityOf exp l r)
    (hr : r = .error .numberError) : ∃ x ∈ l, ∀ y, x ≠ .fin y := by
  cases h with
  | perplexity xs hx => cases hr
  | noWords => cases hr
  | notFinite _ hx => exact hx

theorem perplexityOf_ok {exp : S → S} {l : List (Flt S)} {p : Flt S} (h : PerplexityOf exp l (.ok p)) :
    ∃ xs : List S, xs ≠ [] ∧ l = xs.map .fin ∧ p = .fin (exp (-xs.sum / xs.length)) := by
  cases h with
  | perplexity xs hx => exact ⟨xs, hx, rfl, rfl⟩

/-- C146: files without any words that are included do not change the perplexity. -/
theorem C146_nothing (P : Parsers) (sc : Scorer S) (h : sc.Proper P) (hi : sc.BatchIndependent) (hn : sc.NonPositive)
    (files files' : List Str) (maxLen : Option Nat) (hm : maxLen ≠ some 0) (B : Nat) (hB : 0 < B)
    (h0 : sc.NumIncluded files maxLen 0) (r' : Except Err (Flt S)) (hr' : sc.FilesGive files' B maxLen r') :
    sc.FilesGive (files ++ files') B maxLen r' := by
  obtain ⟨scores, scores', r, s, u, h1, h2, h3, ⟨ss, sc1, n1, n2, n3⟩, _, h6⟩ := combined_scores h hi hn files files' maxLen hm
  obtain ⟨ss', sc2, m1, m2, m3⟩ := h0
  obtain ⟨s0, _, hs0⟩ := sequences_exist_unique files maxLen hm
  have e : ss = ss' := (hs0 ss n1).trans (hs0 ss' m1).symm
  subst e
  have e : sc1 = sc2 := forall₂_unique (R := SequenceScored sc) (fun _ _ _ a b => sequenceScored_unique h a b) n2 m2
  subst e
  rw [← m3] at n3
  have hnil : scores.flatten = [] := List.length_eq_zero_iff.mp n3
  rw [hnil, List.nil_append] at h3
  obtain ⟨_, g2, g3⟩ := h6 B hB
  cases filesGive_unique g2 hr'
  rw [h2.unique h3]
  exact g3

/-- C146: if some word has zero probability, so that there is no perplexity, then there is no perplexity of the files together with
other files. -/
theorem C146_zero (P : Parsers) (sc : Scorer S) (h : sc.Proper P) (hi : sc.BatchIndependent) (hn : sc.NonPositive)
    (files files' : List Str) (maxLen : Option Nat) (hm : maxLen ≠ some 0) (B : Nat) (hB : 0 < B)
    (hr : sc.FilesGive files B maxLen (.error .numberError) ∨ sc.FilesGive files' B maxLen (.error .numberError)) :
    sc.FilesGive (files ++ files') B maxLen (.error .numberError) := by
  obtain ⟨scores, scores', r, r', u, h1, h2, h3, _, _, h6⟩ := combined_scores h hi hn files files' maxLen hm
  obtain ⟨g1, g2, g3⟩ := h6 B hB
  have hbad : ∃ x ∈ scores.flatten ++ scores'.flatten, ∀ y, x ≠ .fin y := by
    rcases hr with hr | hr
    · cases filesGive_unique g1 hr
      obtain ⟨x, hx, hy⟩ := perplexityOf_error h1 rfl
      exact ⟨x, List.mem_append_left _ hx, hy⟩
    · cases filesGive_unique g2 hr
      obtain ⟨x, hx, hy⟩ := perplexityOf_error h2 rfl
      exact ⟨x, List.mem_append_right _ hx, hy⟩
  rw [h3.unique (.notFinite _ hbad)] at g3
  exact g3

end

/-- C146: the cross entropy of files together is the mean of the cross entropies of them, weighted by the numbers of the included
words. -/
theorem C146_mean (P : Parsers) (sc : Scorer ℝ) (h : sc.Proper P) (hi : sc.BatchIndependent) (hn : sc.NonPositive)
    (he : sc.exp = Real.exp) (files files' : List Str) (maxLen : Option Nat) (hm : maxLen ≠ some 0) (B : Nat) (hB : 0 < B)
    (p p' : Flt ℝ) (hp : sc.FilesGive files B maxLen (.ok p)) (hp' : sc.FilesGive files' B maxLen (.ok p')) :
    ∃ (n n' : Nat) (x x' : ℝ), sc.NumIncluded files maxLen n ∧ sc.NumIncluded files' maxLen n' ∧ 0 < n ∧ 0 < n' ∧
      p = .fin (Real.exp x) ∧ p' = .fin (Real.exp x') ∧
      sc.FilesGive (files ++ files') B maxLen (.ok (.fin (Real.exp ((n * x + n' * x') / (n + n'))))) := by
  obtain ⟨scores, scores', r, r', u, h1, h2, h3, h4, h5, h6⟩ := combined_scores h hi hn files files' maxLen hm
  obtain ⟨g1, g2, g3⟩ := h6 B hB
  cases filesGive_unique g1 hp
  cases filesGive_unique g2 hp'
  obtain ⟨xs, x1, x2, rfl⟩ := perplexityOf_ok h1
  obtain ⟨ys, y1, y2, rfl⟩ := perplexityOf_ok h2
  rw [x2, List.length_map] at h4
  rw [y2, List.length_map] at h5
  have hx : 0 < xs.length := List.length_pos_iff.mpr x1
  have hy : 0 < ys.length := List.length_pos_iff.mpr y1
  rw [he]
  refine ⟨xs.length, ys.length, _, _, h4, h5, hx, hy, rfl, rfl, ?_⟩
  have hu := h3.unique (by
    rw [x2, y2, ← List.map_append]
    exact .perplexity (xs ++ ys) (by simp [x1]))
  rw [hu, he] at g3
  have hx' : (xs.length : ℝ) ≠ 0 := by exact_mod_cast hx.ne'
  have hy' : (ys.length : ℝ) ≠ 0 := by exact_mod_cast hy.ne'
  have e : ((xs.length : ℝ) * (-xs.sum / xs.length) + ys.length * (-ys.sum / ys.length)) / (xs.length + ys.length) =
      -(xs ++ ys).sum / ((xs ++ ys).length : ℕ) := by
    rw [mul_div_cancel₀ _ hx', mul_div_cancel₀ _ hy', List.sum_append, List.length_append]
    push_cast
    ring
  rw [e]
  exact g3

/-- C146: the perplexity of files together is between the perplexities of them. -/
theorem C146_between (P : Parsers) (sc : Scorer ℝ) (h : sc.Proper P) (hi : sc.BatchIndependent) (hn : sc.NonPositive)
    (he : sc.exp = Real.exp) (files files' : List Str) (maxLen : Option Nat) (hm : maxLen ≠ some 0) (B : Nat) (hB : 0 < B)
    (p p' : ℝ) (hp : sc.FilesGive files B maxLen (.ok (.fin p))) (hp' : sc.FilesGive files' B maxLen (.ok (.fin p')))
    (hle : p ≤ p') : ∃ q, sc.FilesGive (files ++ files') B maxLen (.ok (.fin q)) ∧ p ≤ q ∧ q ≤ p' ∧ (p < p' → p < q ∧ q < p') := by
  obtain ⟨n, n', x, x', _, _, h1, h2, h3, h4, h5⟩ := C146_mean P sc h hi hn he files files' maxLen hm B hB _ _ hp hp'
  cases h3
  cases h4
  have a1 : (0 : ℝ) < n := by exact_mod_cast h1
  have a2 : (0 : ℝ) < n' := by exact_mod_cast h2
  have hpos : (0 : ℝ) < n + n' := by linarith
  rw [Real.exp_le_exp] at hle
  refine ⟨_, h5, ?_, ?_, fun hlt => ?_⟩
  · rw [Real.exp_le_exp, le_div_iff₀ hpos]
    nlinarith
  · rw [Real.exp_le_exp, div_le_iff₀ hpos]
    nlinarith
  · rw [Real.exp_lt_exp] at hlt
    rw [Real.exp_lt_exp, Real.exp_lt_exp, lt_div_iff₀ hpos, div_lt_iff₀ hpos]
    constructor <;> nlinarith

section
variable {P : Parsers} {v : Vocab} {unkId : Nat} {env : CreateEnv ℝ} {a : Architecture} {layers : List (Created ℝ)} {output : Nat}

/-- C146 for a network without bidirectional layers. -/
theorem C146_network (hv : Constructible P v) (hu : v.wordToId unk = some unkId) (hm : ModelOf env a v layers output)
    (hf : ∀ c ∈ layers, c.layer.Forward) (useShortlist excludeUnk : Bool) (hx : excludeUnk = true → 2 ≤ v.numClasses)
    (hprob : ∀ w, 0 ≤ probOf v w) (hun : ∀ u, v.unigram = some u → ∀ x ∈ u, 0 ≤ x)
    (files files' : List Str) (maxLen : Option Nat) (hl : maxLen ≠ some 0) (B : Nat) (hB : 0 < B) (p p' : ℝ)
    (hp : (scorerOf v unkId layers output useShortlist excludeUnk).FilesGive files B maxLen (.ok (.fin p)))
    (hp' : (scorerOf v unkId layers output useShortlist excludeUnk).FilesGive files' B maxLen (.ok (.fin p'))) (hle : p ≤ p') :
    ∃ q, (scorerOf v unkId layers output useShortlist excludeUnk).FilesGive (files ++ files') B maxLen (.ok (.fin q)) ∧
      p ≤ q ∧ q ≤ p' ∧ (p < p' → p < q ∧ q < p') :=
  C146_between P _ ⟨hv, hu⟩ (C96_independent hv hu hm hf useShortlist excludeUnk)
    (fun ids t x _ ht _ h => C110_probability hv hu hm useShortlist excludeUnk hx hprob hun (sentenceBatch ids) t 0 ht
      (by simp [sentenceBatch]) x h) rfl files files' maxLen hl B hB p p' hp hp' hle

end

/-! ## Concrete cases -/

/-- A case that meets the hypotheses of `C146_mean`, `C146_between` and `C146_network`: two files and another file. -/
example : ∃ layers, ModelOf exampleModelEnv (exampleSmall "q") exScoreVocab layers 3 ∧ (∀ c ∈ layers, c.layer.Forward) ∧
    ∃ p p' : ℝ, (scorerOf exScoreVocab 5 layers 3 false false).FilesGive ["a c\n\na\n".toList, "a c\n".toList] 2 none (.ok (.fin p)) ∧
      (scorerOf exScoreVocab 5 layers 3 false false).FilesGive ["a x\ny\n".toList] 2 none (.ok (.fin p')) := by
  obtain ⟨layers, h1, h2, h3⟩ := exampleModel
  have hs : ¬ (scorerOf exScoreVocab 5 layers 3 false false).UsesShortlist := fun h => Bool.false_ne_true h.1
  have hu : exScoreVocab.wordToId unk = some 5 := by decide +kernel
  have hun : ∀ u, exScoreVocab.unigram = some u → ∀ x ∈ u, 0 ≤ x := fun u hu => by
    cases hu
    decide +kernel
  have heos : exScoreVocab.wordToId eos = some 4 := by decide +kernel
  obtain ⟨p, hp⟩ := C122_finite exScoreVocab_constructible hu h1 h2 false exScoreVocab_nonneg hun hs 4 heos (by decide +kernel) _ _
    exEntropyText (by simp)
  obtain ⟨p', hp'⟩ := C122_finite exScoreVocab_constructible hu h1 h2 false exScoreVocab_nonneg hun hs 4 heos (by decide +kernel) _ _
    exEntropyTextOos (by simp)
  exact ⟨layers, h1, h2, p, p', hp 2 (by decide), hp' 2 (by decide)⟩

/-- A case that meets the hypothesis of `C146_nothing`: a file of blank lines. -/
example : (exScorer true false).NumIncluded ["\n \n".toList] none 0 := by
  obtain ⟨ss, hss, _⟩ := sequences_exist_unique ["\n \n".toList] none nofun
  have e := sequences_words none nofun _ ss hss
  have e' : ["\n \n".toList].flatMap (fileSequences none) = [] := by decide +kernel
  rw [e', List.map_eq_nil_iff] at e
  subst e
  exact ⟨[], [], hss, .nil, rfl⟩

/-- A case of the equation of `C146_mean`: in this scorer the exponential function is replaced by another one, `1 + x`, so that the
perplexities 5/2 of two words and 3 of three words give 14/5 of five words. -/
example : (exScorer true false).filePerplexity ["a\n".toList] ⟨2, none⟩ 100 = some (.ok (.fin (5/2))) ∧
    (exScorer true false).filePerplexity ["a a\n".toList] ⟨2, none⟩ 100 = some (.ok (.fin 3)) ∧
    (exScorer true false).filePerplexity ["a\n".toList, "a a\n".toList] ⟨2, none⟩ 100 = some (.ok (.fin (14/5))) := by
  decide +kernel

/-- A scorer that gives the zero probability to the third word of every sentence. -/
def exZeroScorer : Scorer ℚ :=
  { exScorer true false with
    net := fun w c tc m t i => if t = 2 then .negInf else (exScorer true false).net w c tc m t i }

/-- A case that meets the hypotheses of `C146_zero`: there is a perplexity of the first file but not of the second one. -/
example : exZeroScorer.Proper exParsers ∧ exZeroScorer.BatchIndependent ∧ exZeroScorer.NonPositive ∧
    exZeroScorer.FilesGive ["a\n".toList] 2 none (.ok (.fin (5/2))) ∧
    exZeroScorer.FilesGive ["a a\n".toList] 2 none (.error .numberError) := by
  refine ⟨⟨(exScorer_proper true false).1, (exScorer_proper true false).2⟩, fun _ _ _ _ _ _ _ _ _ _ _ _ _ _ => rfl, ?_,
    filesGive_of 100 (by decide +kernel), filesGive_of 100 (by decide +kernel)⟩
  intro ids t x hv ht hinc hw
  have hnet : exZeroScorer.networkScore (sentenceBatch ids) t 0 =
      if t = 2 then .negInf else (exScorer true false).networkScore (sentenceBatch ids) t 0 := rfl
  by_cases h2 : t = 2
  · exfalso
    rw [if_pos h2] at hnet
    obtain ⟨r, q, _, _, h3⟩ := hw.2 ⟨rfl, by decide +kernel⟩
    obtain ⟨y, z, hy, _, _⟩ := Flt.add_eq_fin h3.symm
    obtain ⟨y1, y2, g1, _, _⟩ := Flt.add_eq_fin hy
    rw [hnet] at g1
    cases g1
  · rw [if_neg h2] at hnet
    refine exScorer_nonPositive true false ids t x hv ht hinc ⟨fun h => absurd ⟨rfl, by decide +kernel⟩ h, fun _ => ?_⟩
    obtain ⟨r, q, h1, h3, h4⟩ := hw.2 ⟨rfl, by decide +kernel⟩
    rw [hnet] at h4
    exact ⟨r, q, h1, h3, h4⟩

end TheanoLM
