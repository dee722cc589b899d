import Verif.Props.FilePerplexity
/-!
# The score command and validation give the same perplexity: C111
-/
set_option linter.unusedSectionVars false

namespace TheanoLM

/-! ## Specification -/

/-- In a sequence that is scored alone, the words whose class membership probability is zero have zero probability. -/
def Scorer.ZeroMembers {S : Type} [Field S] (sc : Scorer S) : Prop :=
  ∀ (ids : List Nat) (t : Nat) (x : Flt S), (sentenceBatch ids).Valid sc.vocab → t < (sentenceBatch ids).steps →
    ¬ sc.Excluded ((sentenceBatch ids).word (t + 1) 0) → (memberOf sc.vocab ((sentenceBatch ids).word (t + 1) 0)).2 = 0 →
    sc.WordScore (sentenceBatch ids) t 0 x → x = .negInf

/-! ## C111 -/

section
variable {S : Type} [Field S] [LinearOrder S] [IsStrictOrderedRing S]

/-- The words that are predicted in the report are those that are included in the perplexity. -/
theorem predicted_included {sc : Scorer S} (hz : sc.ZeroMembers) {ids : List Nat} (hv : (sentenceBatch ids).Valid sc.vocab)
    {ys : List (Option (Flt S))} (hy : sc.SequenceScores (sentenceBatch ids) 0 ys) {xs : List S}
    (hx : sc.IncludedScores (sentenceBatch ids) (xs.map .fin)) :
    ys.filterMap (fun lp => match lp with | none => none | some .negInf => none | some x => some x) = xs.map .fin := by
  unfold Scorer.SequenceScores at hy
  unfold Scorer.IncludedScores at hx
  have e : (List.range (sentenceBatch ids).steps).filter (fun t => decide ((sentenceBatch ids).mask (t + 1) 0 = 1)) =
      List.range (sentenceBatch ids).steps := List.filter_eq_self.mpr fun _ _ => rfl
  rw [e] at hy
  rw [sentence_positions, List.filter_map, List.forall₂_map_left_iff] at hx
  have hfun : ((fun p : Nat × Nat => decide (sc.Included (sentenceBatch ids) p.1 p.2)) ∘ fun t => (t, 0)) =
      fun t => decide (sc.Included (sentenceBatch ids) t 0) := rfl
  rw [hfun] at hx
  have hs : (sentenceBatch ids).steps = ids.length - 1 := rfl
  rw [hs] at hy
  have hmem : ∀ t ∈ List.range (ids.length - 1), t < (sentenceBatch ids).steps := fun t ht => List.mem_range.mp ht
  revert hmem
  generalize List.range (ids.length - 1) = l at hy hx
  intro hmem
  induction hy generalizing xs with
  | nil =>
    cases xs with
    | nil => rfl
    | cons x xs => cases hx
  | @cons t y l ys h _ ih =>
    have ht := hmem t List.mem_cons_self
    have ih := fun xs hx => @ih xs hx fun t ht => hmem t (List.mem_cons_of_mem _ ht)
    by_cases hex : sc.Excluded ((sentenceBatch ids).word (t + 1) 0)
    · have hni : ¬ sc.Included (sentenceBatch ids) t 0 := fun hI => hI.2.1 hex
      rw [List.filter_cons_of_neg (by simpa using hni)] at hx
      rw [h.1 hex]
      exact ih xs hx
    · obtain ⟨x, rfl, hw⟩ := h.2 hex
      by_cases h0 : (memberOf sc.vocab ((sentenceBatch ids).word (t + 1) 0)).2 = 0
      · have hni : ¬ sc.Included (sentenceBatch ids) t 0 := fun hI => hI.2.2 h0
        rw [List.filter_cons_of_neg (by simpa using hni)] at hx
        rw [hz ids t x hv ht hex h0 hw]
        exact ih xs hx
      · have hI : sc.Included (sentenceBatch ids) t 0 := ⟨rfl, hex, h0⟩
        rw [List.filter_cons_of_pos (by simpa using hI)] at hx
        cases xs with
        | nil => cases hx
        | cons z xs =>
          rw [List.map_cons] at hx
          cases hx with
          | cons h1 h2 =>
            rw [C38_word_score_unique _ _ _ _ _ _ hw h1, List.map_cons, ← ih xs h2]
            rfl

theorem fin_sublists {scores : List (List (Flt S))} {xs : List S} (h : scores.flatten = xs.map .fin) :
    ∃ vals : List (List S), scores = vals.map (·.map .fin) ∧ vals.flatten = xs := by
  induction scores generalizing xs with
  | nil =>
    refine ⟨[], rfl, ?_⟩
    cases xs with
    | nil => rfl
    | cons x xs => cases h
  | cons l scores ih =>
    rw [List.flatten_cons] at h
    obtain ⟨a, b, rfl, h1, h2⟩ := List.append_eq_map_iff.mp h
    obtain ⟨vals, rfl, rfl⟩ := ih h2.symm
    exact ⟨a :: vals, by rw [List.map_cons, h1], by rw [List.flatten_cons]⟩

/-- C111.  If the perplexity of a text can be computed as in validation (without cutting the sequences), the score command writes the
same number in the end of its report, when there are no subwords to merge. -/
theorem C111_report (P : Parsers) (sc : Scorer S) (h : sc.Proper P) (hi : sc.BatchIndependent) (hn : sc.NonPositive)
    (hz : sc.ZeroMembers) (showNum : Flt S → Str) (hnl : ∀ x, '\n' ∉ showNum x) (log : Nat → S) (base : Option Nat) (text : Str)
    (B : Nat) (hB : 0 < B) (p : Flt S)
    (hp : ∃ N, ∀ fuel, N ≤ fuel → sc.filePerplexity [text] ⟨B, none⟩ fuel = some (.ok p)) :
    ∃ N out, (∀ fuel, N ≤ fuel →
        scoreCommand sc showNum log base .noMarking "perplexity".toList fuel text = some (out, none)) ∧
      (fileLines out).getLast? = some ("Perplexity: ".toList ++ showNum p ++ "\n".toList) := by
  have hl := lines_linesOf text
  set ls := linesOf isNl text
  obtain ⟨scores, r, a1, a2, a3⟩ := C110_perplexity P sc h hi hn [text] none (by simp) _ (text_sequences hl)
  obtain ⟨N1, hN1⟩ := hp
  obtain ⟨N2, hN2⟩ := a3 B hB
  have hr : r = .ok p := by
    have := (hN1 (max N1 N2) (le_max_left _ _)).symm.trans (hN2 (max N1 N2) (le_max_right _ _))
    injection this with this
    exact this.symm
  subst hr
  generalize hfl : scores.flatten = fl at a2
  cases a2 with
  | perplexity xs hne =>
    obtain ⟨vals, rfl, rfl⟩ := fin_sublists hfl
    obtain ⟨scale, hb⟩ : ∃ scale, BaseScale log base scale := by
      cases base with
      | none => exact ⟨1, fun _ => rfl, nofun⟩
      | some b => exact ⟨log b, nofun, fun b' e => by cases e; rfl⟩
    obtain ⟨sents, s1, s2⟩ := C88_report_partial P sc h hi showNum hnl log base scale hb .noMarking (by decide) false text ls hl
    have hpred : sents.map Sentence.predicted = vals.map (·.map .fin) := by
      rw [List.forall₂_map_left_iff, List.forall₂_map_right_iff] at a1
      have := forall₂_join s1 a1 (C := fun s xs => s.predicted = xs.map .fin) (by
        rintro line s xs ⟨u, ids, ys, g1, g2, g3, g4, g5⟩ ⟨ids', k1, k2⟩
        rw [List.forall₂_map_left_iff, utterance_of_ok g1] at k1
        have hids : ids' = ids := forall₂_unique (R := IdOf sc.vocab false sc.unkId)
          (fun _ _ _ a b => idOf_unique (constructible_nodup h.vocab) a b) k1 g2
        subst hids
        have hlps : s.lps = ys := by
          unfold mergeSubwords at g4
          cases u with
          | nil => cases g4
          | cons w u =>
            simp only at g4
            split at g4
            · cases g4
            · injection g4 with g4
              exact (congrArg Prod.snd g4).symm
        have hne' : ids' ≠ [] := by
          rintro rfl
          cases g2
          cases g4
        unfold Sentence.predicted
        rw [hlps]
        exact predicted_included hz (sentence_valid' h.unk g2 hne') g3 k2)
      clear s1 s2 a1 a3 hN1 hN2 hfl hne
      induction this with
      | nil => rfl
      | cons h _ ih => rw [List.map_cons, List.map_cons, h, ih]
    have hflat : sents.flatMap Sentence.predicted = vals.flatten.map .fin := by
      rw [List.flatMap_def, hpred, List.map_flatten]
    obtain ⟨N, out, o1, blocks, entropy, o2, o3, -, -, o5⟩ := s2 nofun (by
      right
      by_contra hall
      push Not at hall
      refine hne ?_
      have : sents.flatMap Sentence.predicted = [] := List.flatMap_eq_nil_iff.mpr hall
      rw [hflat] at this
      exact List.map_eq_nil_iff.mp this)
    have hs : sents ≠ [] := by
      rintro rfl
      exact hne (List.map_eq_nil_iff.mp hflat.symm)
    obtain ⟨inBase, e1, -, -⟩ := o5 hs
    refine ⟨N, out, o1, ?_⟩
    have hce : (crossEntropyOf (sents.flatMap Sentence.predicted)).exp sc.exp =
        .fin (sc.exp (-vals.flatten.sum / vals.flatten.length)) := by
      rw [hflat]
      unfold crossEntropyOf
      rw [Flt.sum_eq_fin.mpr ⟨_, rfl, rfl⟩, List.length_map]
      rfl
    rw [o2, e1, hce, ← List.append_assoc]
    exact List.getLast?_concat

/-- Words with zero class membership probability have zero probability, if the network gives a logarithm of a number that is not
negative and `<unk>` is not one of the words with zero probability. -/
theorem zeroMembers_of {P : Parsers} {sc : Scorer S} (h : sc.Proper P)
    (hnet : ∀ ids t, t < (sentenceBatch ids).steps → sc.networkScore (sentenceBatch ids) t 0 = .negInf ∨
      ∃ y, sc.networkScore (sentenceBatch ids) t 0 = .fin y) (hlog0 : sc.log 0 = .negInf) (hlog1 : ∃ y, sc.log 1 = .fin y)
    (hunk : probOf sc.vocab sc.unkId ≠ 0) : sc.ZeroMembers := by
  intro ids t x _ ht _ h0 hw
  have hsum : (sc.networkScore (sentenceBatch ids) t 0).add (sc.log (memberOf sc.vocab ((sentenceBatch ids).word (t + 1) 0)).2) =
      .negInf := by
    rw [h0, hlog0]
    rcases hnet ids t ht with h | ⟨y, h⟩ <;> rw [h] <;> rfl
  have hshort : (sentenceBatch ids).word (t + 1) 0 < sc.vocab.numShortlist := by
    by_contra hge
    have e := (memberOf_class h.vocab h.unk ((sentenceBatch ids).word (t + 1) 0)).2.2
    rw [if_neg hge, h0] at e
    exact hunk e.symm
  by_cases hus : sc.UsesShortlist
  · obtain ⟨l, q, h1, h2, h3⟩ := hw.2 hus
    rw [hsum] at h3
    rw [h3]
    have hq : q = some 1 := by
      obtain ⟨u, hg⟩ := Option.ne_none_iff_exists'.mp hus.2
      unfold Vocab.oosProbs at h1
      rw [hg] at h1
      simp only [Option.some.injEq] at h1
      subst h1
      obtain ⟨n, ps, hvi⟩ := h.vocab.inv
      have hlen : u.length = sc.vocab.numWords := hvi.uni u hg
      have hsl : sc.vocab.numShortlist ≤ sc.vocab.numWords := hvi.short
      rw [List.getElem?_append_left (by simp; omega), List.getElem?_map, List.getElem?_take_of_lt hshort,
        List.getElem?_eq_getElem (by omega)] at h2
      injection h2 with h2
      exact h2.symm
    subst hq
    obtain ⟨y, hy⟩ := hlog1
    simp only [hy]
    rfl
  · rw [hw.1 hus, hsum]

end

/-! ## Networks -/

section
variable {P : Parsers} {v : Vocab} {unkId : Nat} {env : CreateEnv ℝ} {a : Architecture} {layers : List (Created ℝ)} {output : Nat}

theorem fltLog_nonneg {x : ℝ} (h : 0 ≤ x) : fltLog x = .negInf ∨ ∃ y, fltLog x = .fin y := by
  unfold fltLog
  by_cases h0 : x = 0
  · exact .inl (if_pos h0)
  · exact .inr ⟨_, by rw [if_neg h0, if_pos (lt_of_le_of_ne h (Ne.symm h0))]⟩

/-- Words with zero class membership probability have zero probability, if `<unk>` is not one of them. -/
theorem network_zeroMembers (hv : Constructible P v) (hu : v.wordToId unk = some unkId) (hm : ModelOf env a v layers output)
    (useShortlist excludeUnk : Bool) (hx : excludeUnk = true → 2 ≤ v.numClasses) (hunk : probOf v unkId ≠ 0) :
    (scorerOf v unkId layers output useShortlist excludeUnk).ZeroMembers := by
  refine zeroMembers_of (P := P) ⟨hv, hu⟩ ?_ (by simp [scorerOf, networkScorer, fltLog])
    ⟨0, by simp [scorerOf, networkScorer, fltLog]⟩ hunk
  intro ids t ht
  generalize hb : sentenceBatch ids = b at *
  have hi : 0 < b.n := by rw [← hb]; simp [sentenceBatch]
  have hpos : 0 < v.numClasses := lt_of_le_of_lt (Nat.zero_le _) (memberOf_class hv hu 0).1
  obtain ⟨out, o1, o2, o3, o4⟩ := output_distribution_le hm hx hpos (batch := table b.steps b.n (cellOf v unkId b))
    rect_table (cells_valid hv hu hm.words hm.classes b b.steps)
  obtain ⟨e, he⟩ := Option.isSome_iff_exists.mp ((posAt_isSome o3 t 0).mpr ⟨by rw [o2]; simp [table]; omega, hi⟩)
  obtain ⟨p, hp, p1, p2, _⟩ := o4 _ _ e he
  rw [score_of_output ht hi o1 he hp]
  have hlt : (memberOf v (b.word (t + 1) 0)).1 < p.length := by rw [p1]; exact (memberOf_class hv hu _).1
  rw [List.getElem?_eq_getElem hlt]
  exact fltLog_nonneg (p2 _ (List.getElem_mem hlt))

/-- C111, networks.  For a network without bidirectional layers, the perplexity in the end of the report of the score command is the
perplexity that is computed in validation. -/
theorem C111_network (hv : Constructible P v) (hu : v.wordToId unk = some unkId) (hm : ModelOf env a v layers output)
    (hf : ∀ c ∈ layers, c.layer.Forward) (useShortlist excludeUnk : Bool) (hx : excludeUnk = true → 2 ≤ v.numClasses)
    (hprob : ∀ w, 0 ≤ probOf v w) (hunk : probOf v unkId ≠ 0) (hun : ∀ u, v.unigram = some u → ∀ x ∈ u, 0 ≤ x)
    (showNum : Flt ℝ → Str) (hnl : ∀ x, '\n' ∉ showNum x) (log : Nat → ℝ) (base : Option Nat) (text : Str)
    (B : Nat) (hB : 0 < B) (p : Flt ℝ)
    (hp : ∃ N, ∀ fuel, N ≤ fuel →
      (scorerOf v unkId layers output useShortlist excludeUnk).filePerplexity [text] ⟨B, none⟩ fuel = some (.ok p)) :
    ∃ N out, (∀ fuel, N ≤ fuel →
        scoreCommand (scorerOf v unkId layers output useShortlist excludeUnk) showNum log base .noMarking "perplexity".toList fuel
          text = some (out, none)) ∧
      (fileLines out).getLast? = some ("Perplexity: ".toList ++ showNum p ++ "\n".toList) :=
  C111_report P _ ⟨hv, hu⟩ (C96_independent hv hu hm hf useShortlist excludeUnk)
    (fun ids t x _ ht _ h => C110_probability hv hu hm useShortlist excludeUnk hx hprob hun (sentenceBatch ids) t 0 ht
      (by simp [sentenceBatch]) x h) (network_zeroMembers hv hu hm useShortlist excludeUnk hx hunk) showNum hnl log base text B hB p hp

end

/-! ## Examples -/

theorem exScorer_zeroMembers (u e : Bool) : (exScorer u e).ZeroMembers :=
  zeroMembers_of (exScorer_proper u e) (fun _ t _ => .inr ⟨-((t : ℚ) + 1), rfl⟩) (by simp [exScorer]) ⟨0, by simp [exScorer]⟩
    (show probOf exScoreVocab 5 ≠ 0 by decide +kernel)

/-- A case that meets the hypotheses of `C111_report`: a text with words outside the shortlist and the vocabulary and a word whose
class membership probability is zero. -/
example : (exScorer true false).Proper exParsers ∧ (exScorer true false).BatchIndependent ∧ (exScorer true false).NonPositive ∧
    (exScorer true false).ZeroMembers ∧
    (exScorer true false).filePerplexity ["a x b\n\n zzz a\n".toList] ⟨2, none⟩ 100 = some (.ok (.fin (71/20))) :=
  ⟨exScorer_proper _ _, exScorer_independent _ _, exScorer_nonPositive _ _, exScorer_zeroMembers _ _, by decide +kernel⟩

/-- A case that meets the hypotheses of `C111_network`. -/
example : ∃ layers, ModelOf exampleModelEnv (exampleSmall "q") exScoreVocab layers 3 ∧ (∀ c ∈ layers, c.layer.Forward) ∧
    Constructible exParsers exScoreVocab ∧ exScoreVocab.wordToId unk = some 5 ∧ 2 ≤ exScoreVocab.numClasses ∧
    (∀ w, 0 ≤ probOf exScoreVocab w) ∧ probOf exScoreVocab 5 ≠ 0 ∧ ∀ u, exScoreVocab.unigram = some u → ∀ x ∈ u, 0 ≤ x := by
  obtain ⟨layers, h1, h2, _⟩ := exampleModel
  refine ⟨layers, h1, h2, exScoreVocab_constructible, by decide +kernel, by decide +kernel, exScoreVocab_nonneg, by decide +kernel,
    fun u hu => ?_⟩
  cases hu
  decide +kernel

/-- The converse does not hold: if the network gives zero probability to a word, the perplexity cannot be computed in validation, but
the score command leaves the word out and reports the perplexity of the other words. -/
theorem C111_zero_probability : ∃ sc : Scorer ℚ, sc.Proper exParsers ∧ sc.BatchIndependent ∧
    sc.filePerplexity ["a\n".toList] ⟨1, none⟩ 100 = some (.error .numberError) ∧
    ∃ out, scoreCommand sc exShowNum (fun b => b) none .noMarking "perplexity".toList 100 "a\n".toList = some (out, none) ∧
      (fileLines out).getLast? = some "Perplexity: 3/1\n".toList := by
  refine ⟨{ exScorer true false with net := fun _ _ _ _ t _ => if t = 0 then .negInf else .fin (-(t + 1)) }, ⟨(exScorer_proper true false).1, (exScorer_proper true false).2⟩,
    fun _ _ _ _ _ _ _ _ _ _ _ _ _ _ => rfl, by decide +kernel, ?_⟩
  refine ⟨_, (by decide +kernel : _ = some (("Number of sentences: 1\nNumber of words: 3\nNumber of tokens: 3\n" ++
    "Number of predicted probabilities: 1\nNumber of excluded (OOV) words: 0\nNumber of zero probabilities: 1\n" ++
    "Cross entropy (base e): 2/1\nPerplexity: 3/1\n").toList, none)), by decide +kernel⟩

end TheanoLM
