import Verif.Props.PerplexityAgreement
/-!
# The scores of the utterances add up to the perplexity: C115
-/
set_option linter.unusedSectionVars false

namespace TheanoLM

section
variable {S : Type} [Field S] [LinearOrder S] [IsStrictOrderedRing S]

/-! ## Helper lemmas -/

theorem mapE_ok_each {α β : Type} {f : α → Except Err β} {l : List α} {r : List β} (h : mapE f l = .ok r) :
    ∀ x ∈ l, ∃ y, f x = .ok y := by
  induction l generalizing r with
  | nil => exact fun x hx => absurd hx (by simp)
  | cons a l ih =>
    obtain ⟨b, bs, h1, h2, -⟩ := mapE_cons_ok h
    intro x hx
    rcases List.mem_cons.mp hx with rfl | hx
    · exact ⟨b, h1⟩
    · exact ih h2 x hx

/-- If a line with words gets a score, the score is finite, and it is the sum in the specification of C89. -/
theorem scoreLine_some {P : Parsers} {sc : Scorer S} (h : sc.Proper P) {line : Str}
    (hw : line.any (fun c => !isSpace c) = true) {r : Option (Flt S)} (hr : sc.scoreLine line = .ok r) :
    ∃ a : S, UtteranceScore sc line (.fin a) ∧ r = some (.fin a) := by
  obtain ⟨unkId, ids, hu, hids, hof⟩ := C08_words_to_ids P sc.vocab h.vocab (utterance line)
  rw [h.unk] at hu
  cases hu
  have hlen := hof.length_eq
  have h2 := utterance_words hw
  have hune : utterance line ≠ [] := by
    intro e
    rw [e] at h2
    simp at h2
  have hne : ids ≠ [] := by
    rintro rfl
    rw [hlen] at h2
    simp at h2
  have hs : ∀ w ∈ ids, w < sc.vocab.numShortlist := by
    unfold Scorer.scoreLine at hr
    rw [utterance_ok] at hr
    simp only [if_neg hune, hids] at hr
    split at hr
    · cases hr
    · rename_i sequence hseq
      intro w hwm
      obtain ⟨y, hy⟩ := mapE_ok_each hseq w hwm
      by_contra hlt
      rw [List.getElem?_eq_none (by simpa [Vocab.numShortlist] using hlt)] at hy
      cases hy
  obtain ⟨batch, ys, e1, e2, -, e3⟩ := C39_line_partial P sc h line ids hids hne hs
  obtain ⟨batch', r', g1, g2, g3, g4⟩ := C38_score_batch P sc h (sentenceBatch ids) (sentence_valid h hne hs)
  rw [e1] at g1
  cases g1
  rw [e2] at g2
  cases g2
  rw [e3] at hr
  cases hc : checkLogprob (Flt.sum ((ys.zip ids.tail).filterMap
          (fun p => if (memberOf sc.vocab p.2).2 = 0 then none else p.1))) with
  | error e => rw [hc] at hr; cases hr
  | ok x =>
    rw [hc] at hr
    obtain ⟨k1, a, k2, -⟩ := checkLogprob_ok.mp hc
    refine ⟨a, ⟨_, ids, ys, utterance_ok line, hof, g4 0 ys rfl, k2.symm⟩, ?_⟩
    simp only [Except.ok.injEq] at hr
    rw [← hr, ← k1, k2]

/-- What the command has written when it has finished. -/
theorem utterancesLoop_ok {P : Parsers} {sc : Scorer S} (h : sc.Proper P) (showNum : Flt S → Str) (scale : S) {ls : List Str}
    {out : Str} (ho : scoreUtterancesLoop sc showNum scale ls = (out, none)) :
    ∃ xs : List S, List.Forall₂ (fun line x => UtteranceScore sc line (.fin x)) (linesWithWords ls) xs ∧
      out = (xs.map (fun x => showNum (.fin (x / scale)) ++ "\n".toList)).flatten := by
  induction ls generalizing out with
  | nil =>
    refine ⟨[], .nil, ?_⟩
    cases ho
    rfl
  | cons line rest ih =>
    rw [scoreUtterancesLoop] at ho
    by_cases hw : line.any (fun c => !isSpace c) = true
    · have ef : linesWithWords (line :: rest) = line :: linesWithWords rest := List.filter_cons_of_pos hw
      cases hsl : sc.scoreLine line with
      | error e => rw [hsl] at ho; cases ho
      | ok r =>
        obtain ⟨a, ha, rfl⟩ := scoreLine_some h hw hsl
        rw [hsl] at ho
        dsimp only at ho
        injection ho with o1 o2
        obtain ⟨xs, x1, x2⟩ := ih (out := (scoreUtterancesLoop sc showNum scale rest).1) (by rw [← o2])
        refine ⟨a :: xs, by rw [ef]; exact .cons ha x1, ?_⟩
        rw [← o1, x2]
        rfl
    · have ef : linesWithWords (line :: rest) = linesWithWords rest := List.filter_cons_of_neg hw
      have hu : utteranceFromLine line = .ok [] := by
        rw [utterance_ok, utterance_blank (by simpa using hw)]
      rw [C39_blank sc line hu] at ho
      rw [ef]
      exact ih ho

/-- Every character of the text is on one of its lines. -/
theorem lines_char {text : Str} {ls : List Str} (h : Lines text ls) {c : Char} (hc : c ∈ text) : ∃ line ∈ ls, c ∈ line := by
  induction h with
  | nil => cases hc
  | last l _ _ => exact ⟨l, by simp, hc⟩
  | cons l rest ls _ _ ih =>
    rcases List.mem_append.mp hc with h | h
    · exact ⟨_, List.mem_cons_self, List.mem_append_left _ h⟩
    · rcases List.mem_cons.mp h with rfl | h
      · exact ⟨_, List.mem_cons_self, by simp⟩
      · obtain ⟨line, h1, h2⟩ := ih h
        exact ⟨line, List.mem_cons_of_mem _ h1, h2⟩

/-- A line has one sentence. -/
theorem sentenceOfLine_unique {P : Parsers} {sc : Scorer S} (h : sc.Proper P) (marking : Marking) (line : Str) (s s' : Sentence S)
    (hs : SentenceOfLine sc marking line s) (hs' : SentenceOfLine sc marking line s') : s = s' := by
  obtain ⟨u, ids, ys, h1, h2, h3, h4, h5⟩ := hs
  obtain ⟨u', ids', ys', g1, g2, g3, g4, g5⟩ := hs'
  rw [h1] at g1
  cases g1
  have e := forall₂_unique (R := IdOf sc.vocab false sc.unkId)
    (fun _ _ _ h1 h2 => idOf_unique (constructible_nodup h.vocab) h1 h2) h2 g2
  subst e
  have e := sequenceScores_unique h3 g3
  subst e
  rw [h4] at g4
  injection g4 with g4
  injection g4 with g6 g7
  cases s
  cases s'
  simp_all

/-- The predicted words of a line are those that the score of the line consists of. -/
theorem predicted_score {P : Parsers} {sc : Scorer S} (h : sc.Proper P) (hz : sc.ZeroMembers) {line : Str} {a : S}
    {s : Sentence S} (hx : UtteranceScore sc line (.fin a)) (hs : SentenceOfLine sc .noMarking line s) :
    ∃ xs : List S, s.predicted = xs.map .fin ∧ xs.sum = a := by
  obtain ⟨u, ids, ys, h1, h2, h3, h4⟩ := hx
  obtain ⟨u', ids', ys', g1, g2, g3, g4, g5⟩ := hs
  rw [h1] at g1
  cases g1
  have e := forall₂_unique (R := IdOf sc.vocab false sc.unkId)
    (fun _ _ _ h1 h2 => idOf_unique (constructible_nodup h.vocab) h1 h2) h2 g2
  subst e
  have e := sequenceScores_unique h3 g3
  subst e
  obtain ⟨zs, z1, z2⟩ := Flt.sum_eq_fin.mp h4.symm
  refine ⟨zs, ?_, z2.symm⟩
  have hlps : s.lps = ys := by
    unfold mergeSubwords at g4
    cases u with
    | nil => cases g4
    | cons w u =>
      simp only at g4
      split at g4
      · cases g4
      · injection g4 with g4
        exact (congrArg Prod.snd g4).symm
  have hne' : ids ≠ [] := by
    rintro rfl
    cases g2
    cases g4
  have hv := sentence_valid' h.unk g2 hne'
  unfold Sentence.predicted
  rw [hlps, ← z1]
  have hnegInf : some Flt.negInf ∉ (ys.zip ids.tail).map
      (fun p => if (memberOf sc.vocab p.2).2 = 0 then none else p.1) := by
    intro hm
    obtain ⟨p, hp, hpe⟩ := List.mem_map.mp hm
    have : Flt.negInf ∈ zs.map Flt.fin := by
      rw [← z1]
      exact List.mem_filterMap.mpr ⟨p, hp, hpe⟩
    obtain ⟨z, _, hz'⟩ := List.mem_map.mp this
    cases hz'
  have e : (List.range (sentenceBatch ids).steps).filter (fun t => decide ((sentenceBatch ids).mask (t + 1) 0 = 1)) =
      List.range (sentenceBatch ids).steps := List.filter_eq_self.mpr fun _ _ => rfl
  unfold Scorer.SequenceScores at h3
  rw [e] at h3
  have hsteps : (sentenceBatch ids).steps = ids.length - 1 := rfl
  have htail : ids.tail = (List.range (sentenceBatch ids).steps).map (fun t => (sentenceBatch ids).word (t + 1) 0) := by
    apply List.ext_getElem
    · simp [hsteps]
    · intro t a b
      simp only [List.length_tail] at a
      simp [sentenceBatch, List.getElem?_eq_getElem (show t + 1 < ids.length by omega)]
  rw [htail] at hnegInf ⊢
  have hmem : ∀ t ∈ List.range (sentenceBatch ids).steps, t < (sentenceBatch ids).steps := fun t ht => List.mem_range.mp ht
  clear z1 h4 g3 g4 g5 hlps htail e
  revert hmem
  generalize List.range (sentenceBatch ids).steps = l at h3 hnegInf ⊢
  intro hmem
  induction h3 with
  | nil => rfl
  | @cons t y l ys hy _ ih =>
    rw [List.map_cons, List.zip_cons_cons, List.map_cons, List.mem_cons, not_or] at hnegInf
    have ih := ih hnegInf.2 (fun t ht => hmem t (List.mem_cons_of_mem _ ht))
    rw [List.map_cons, List.zip_cons_cons, List.filterMap_cons, List.filterMap_cons, ih]
    have ht := hmem t List.mem_cons_self
    by_cases hex : sc.Excluded ((sentenceBatch ids).word (t + 1) 0)
    · rw [hy.1 hex]
      simp
    · obtain ⟨x, rfl, hw⟩ := hy.2 hex
      by_cases h0 : (memberOf sc.vocab ((sentenceBatch ids).word (t + 1) 0)).2 = 0
      · rw [hz ids t x hv ht hex h0 hw]
        simp [h0]
      · have hx' : x ≠ .negInf := by
          rintro rfl
          exact hnegInf.1 (by simp [h0])
        cases x <;> simp_all

/-! ## C115 -/

/-- C115.  If the score command finishes for a text both with "utterance-scores" and with "perplexity", and there are words in the
text, the perplexity in the end of the report is the exponential of the negated sum of the utterance scores (before they are
converted to the given base), divided by the number of predicted probabilities in the report. -/
theorem C115_total (P : Parsers) (sc : Scorer S) (h : sc.Proper P) (hi : sc.BatchIndependent) (hz : sc.ZeroMembers)
    (showNum : Flt S → Str) (hnl : ∀ x, '\n' ∉ showNum x) (log : Nat → S) (base : Option Nat) (scale : S)
    (hb : BaseScale log base scale) (text : Str) (hw : ∃ c ∈ text, isSpace c = false) (marking : Marking) (out out' : Str)
    (hs : ∃ fuel, scoreCommand sc showNum log base marking "utterance-scores".toList fuel text = some (out, none))
    (hp : ∃ N, ∀ fuel, N ≤ fuel →
      scoreCommand sc showNum log base .noMarking "perplexity".toList fuel text = some (out', none)) :
    ∃ (xs : List S) (n : Nat), n ≠ 0 ∧ fileLines out = xs.map (fun x => showNum (.fin (x / scale)) ++ "\n".toList) ∧
      ("Number of predicted probabilities: ".toList ++ decimal n ++ "\n".toList) ∈ fileLines out' ∧
      (fileLines out').getLast? =
        some ("Perplexity: ".toList ++ showNum (.fin (sc.exp (-xs.sum / n))) ++ "\n".toList) := by
  obtain ⟨f, hs⟩ := hs
  obtain ⟨N, hp⟩ := hp
  have hl := lines_linesOf text
  have hout : scoreUtterancesLoop sc showNum scale (linesOf isNl text) = (out, none) := by
    have e : scoreCommand sc showNum log base marking "utterance-scores".toList f text =
        some (scoreUtterancesLoop sc showNum scale (linesOf isNl text)) := by
      rw [← scoreScale_eq hb]
      unfold scoreCommand scoreUtterances
      rw [fileLines_linesOf, if_neg (by decide), if_neg (by decide), if_pos rfl]
    rw [e] at hs
    exact Option.some.inj hs
  generalize linesOf isNl text = ls at hl hout
  obtain ⟨xs, x1, rfl⟩ := utterancesLoop_ok h showNum scale hout
  obtain ⟨sents, s1, s2⟩ := C88_report_partial P sc h hi showNum hnl log base scale hb .noMarking (by decide) false text ls hl
  obtain ⟨sents', t1, -, t2⟩ := C88_stops P sc h hi showNum hnl log base scale hb .noMarking (by decide) false text ls hl
  have := forall₂_unique (sentenceOfLine_unique h .noMarking) s1 t1
  subst this
  have hne : sents ≠ [] := by
    obtain ⟨c, hc, hsp⟩ := hw
    obtain ⟨line, hline, hcl⟩ := lines_char hl hc
    have hmem : line ∈ linesWithWords ls := List.mem_filter.mpr ⟨hline, List.any_eq_true.mpr ⟨c, hcl, by rw [hsp]; rfl⟩⟩
    rintro rfl
    cases s1' : linesWithWords ls with
    | nil => rw [s1'] at hmem; cases hmem
    | cons _ _ => rw [s1'] at s1; cases s1
  have hsome : ∃ s ∈ sents, s.predicted ≠ [] := by
    by_contra hall
    push Not at hall
    obtain ⟨M, o, ho, -⟩ := t2 rfl hne hall
    have := (hp (max N M) (le_max_left _ _)).symm.trans (ho (max N M) (le_max_right _ _))
    simp at this
  have hsum : ∃ vals : List (List S), sents.map Sentence.predicted = vals.map (·.map .fin) ∧ xs = vals.map List.sum := by
    have := forall₂_join s1 x1 (C := fun s x => ∃ zs : List S, s.predicted = zs.map .fin ∧ zs.sum = x)
      (fun line s x g1 g2 => predicted_score h hz g2 g1)
    clear s1 s2 t1 t2 x1 hs hout hne hsome
    induction this with
    | nil => exact ⟨[], rfl, rfl⟩
    | cons g _ ih =>
      obtain ⟨vals, v1, v2⟩ := ih
      obtain ⟨zs, z1, z2⟩ := g
      exact ⟨zs :: vals, by rw [List.map_cons, List.map_cons, z1, v1], by rw [List.map_cons, z2, v2]⟩
  obtain ⟨vals, v1, rfl⟩ := hsum
  have hflat : sents.flatMap Sentence.predicted = vals.flatten.map .fin := by
    rw [List.flatMap_def, v1, List.map_flatten]
  obtain ⟨M, o, o1, blocks, entropy, o2, o3, -, -, o5⟩ := s2 nofun (.inr hsome)
  have ho : o = out' := by
    have := (hp (max N M) (le_max_left _ _)).symm.trans (o1 (max N M) (le_max_right _ _))
    simpa using this.symm
  subst ho
  obtain ⟨inBase, e1, -, -⟩ := o5 hne
  refine ⟨vals.map List.sum, vals.flatten.length, ?_, ?_, ?_, ?_⟩
  · intro h0
    obtain ⟨s, hs1, hs2⟩ := hsome
    refine hs2 (List.flatMap_eq_nil_iff.mp ?_ s hs1)
    rw [hflat, List.length_eq_zero_iff.mp h0]
    rfl
  · rw [fileLines_flatten]
    intro l hl
    obtain ⟨x, _, rfl⟩ := List.mem_map.mp hl
    exact isLine_mk (hnl _)
  · rw [o2]
    have : ("Number of predicted probabilities: ".toList ++ decimal vals.flatten.length ++ "\n".toList) ∈ countLines sents := by
      unfold countLines
      rw [hflat, List.length_map]
      exact .tail _ (.tail _ (.tail _ (.head _)))
    exact List.mem_append_left _ (List.mem_append_right _ this)
  · have hce : (crossEntropyOf (sents.flatMap Sentence.predicted)).exp sc.exp =
        .fin (sc.exp (-(vals.map List.sum).sum / vals.flatten.length)) := by
      rw [hflat]
      unfold crossEntropyOf
      rw [Flt.sum_eq_fin.mpr ⟨_, rfl, rfl⟩, List.length_map, List.sum_flatten]
      rfl
    rw [o2, e1, hce, ← List.append_assoc]
    exact List.getLast?_concat

end

/-! ## Networks -/

section
variable {P : Parsers} {v : Vocab} {unkId : Nat} {env : CreateEnv ℝ} {a : Architecture} {layers : List (Created ℝ)} {output : Nat}

/-- C115, networks without bidirectional layers. -/
theorem C115_network (hv : Constructible P v) (hu : v.wordToId unk = some unkId) (hm : ModelOf env a v layers output)
    (hf : ∀ c ∈ layers, c.layer.Forward) (useShortlist excludeUnk : Bool) (hx : excludeUnk = true → 2 ≤ v.numClasses)
    (hunk : probOf v unkId ≠ 0) (showNum : Flt ℝ → Str) (hnl : ∀ x, '\n' ∉ showNum x) (log : Nat → ℝ) (base : Option Nat)
    (scale : ℝ) (hb : BaseScale log base scale) (text : Str) (hw : ∃ c ∈ text, isSpace c = false) (marking : Marking)
    (out out' : Str)
    (hs : ∃ fuel, scoreCommand (scorerOf v unkId layers output useShortlist excludeUnk) showNum log base marking
      "utterance-scores".toList fuel text = some (out, none))
    (hp : ∃ N, ∀ fuel, N ≤ fuel → scoreCommand (scorerOf v unkId layers output useShortlist excludeUnk) showNum log base
      .noMarking "perplexity".toList fuel text = some (out', none)) :
    ∃ (xs : List ℝ) (n : Nat), n ≠ 0 ∧ fileLines out = xs.map (fun x => showNum (.fin (x / scale)) ++ "\n".toList) ∧
      ("Number of predicted probabilities: ".toList ++ decimal n ++ "\n".toList) ∈ fileLines out' ∧
      (fileLines out').getLast? =
        some ("Perplexity: ".toList ++ showNum (.fin (Real.exp (-xs.sum / n))) ++ "\n".toList) :=
  C115_total P _ ⟨hv, hu⟩ (C96_independent hv hu hm hf useShortlist excludeUnk)
    (network_zeroMembers hv hu hm useShortlist excludeUnk hx hunk) showNum hnl log base scale hb text hw marking out out' hs hp

end

/-! ## Examples -/

/-- A case that meets the hypotheses of `C115_total`: a text with a word outside the vocabulary and a line without words. -/
example : (exScorer true false).Proper exParsers ∧ (exScorer true false).BatchIndependent ∧ (exScorer true false).ZeroMembers ∧
    scoreCommand (exScorer true false) exShowNum (fun b => b) none .noMarking "utterance-scores".toList 0
      "a b\n\n zzz a\n".toList = some ("-4/1\n-5/1\n".toList, none) ∧
    scoreCommand (exScorer true false) exShowNum (fun b => b) none .noMarking "perplexity".toList 100
      "a b\n\n zzz a\n".toList = some (("Number of sentences: 2\nNumber of words: 8\nNumber of tokens: 8\n" ++
        "Number of predicted probabilities: 4\nNumber of excluded (OOV) words: 1\nNumber of zero probabilities: 1\n" ++
        "Cross entropy (base e): 9/4\nPerplexity: 13/4\n").toList, none) :=
  ⟨exScorer_proper _ _, exScorer_independent _ _, exScorer_zeroMembers _ _, by decide +kernel, by decide +kernel⟩

end TheanoLM
