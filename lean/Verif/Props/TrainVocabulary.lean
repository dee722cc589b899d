import Verif.Model.TrainCommand
import Verif.Props.Statistics
/-!
# The vocabulary of the train command: C90
-/
set_option linter.unusedSectionVars false
namespace TheanoLM

/-! ## Specification -/

/-- The model file is new, or its vocabulary was saved from a vocabulary. -/
def SavedFile (P : Parsers) (f : ModelFile) : Prop :=
  ∀ st, f.vocabulary = some st → ∃ v, Constructible P v ∧ v.getState ⟨none, none, none, none⟩ = .ok st

/-- The unigram probabilities of the vocabulary are the relative frequencies in a list of words. -/
def RelativeFrequencies (v : Vocab) (tokens : List Str) : Prop :=
  ∃ u, v.unigram = some u ∧ u.length = v.numWords ∧
    ∀ (i : Nat) (w : Str), v.idToWord[i]? = some w → ∃ p, u[i]? = some p ∧ p * tokens.length = tokens.count w

/-- A word is one of the three special tokens. -/
def SpecialToken (w : Str) : Prop := w = sos ∨ w = eos ∨ w = unk

instance : DecidablePred SpecialToken := fun w => inferInstanceAs (Decidable (w = sos ∨ w = eos ∨ w = unk))

/-! ## Lemmas -/

theorem sum_ite_count (l : List Str) (a : Str) : (l.map (fun w => if a = w then 1 else 0)).sum = l.count a := by
  induction l with
  | nil => rfl
  | cons b l ih =>
    rw [List.map_cons, List.sum_cons, ih, List.count_cons]
    simp only [beq_iff_eq, eq_comm (a := a)]
    omega

theorem sum_count_cons (l s : List Str) (a : Str) : (l.map (fun w => (a :: s).count w)).sum =
    (l.map (fun w => s.count w)).sum + (l.map (fun w => if a = w then 1 else 0)).sum := by
  induction l with
  | nil => rfl
  | cons b l ih =>
    rw [List.map_cons, List.sum_cons, ih, List.map_cons, List.sum_cons, List.map_cons, List.sum_cons, List.count_cons]
    simp only [beq_iff_eq]
    omega

theorem sum_count_cover (l s : List Str) (hn : l.Nodup) (h : ∀ w ∈ s, w ∈ l) : (l.map (fun w => s.count w)).sum = s.length := by
  induction s with
  | nil => simp
  | cons a s ih =>
    rw [sum_count_cons, ih (fun w hw => h w (List.mem_cons_of_mem _ hw)), sum_ite_count,
      List.count_eq_one_of_mem hn (h a (by simp)), List.length_cons]

/-- The unigram probabilities, when all the counted words are in the vocabulary. -/
theorem unigramOf_frequencies (ws : List Str) (hn : ws.Nodup) (wc : List (Str × Nat)) (hk : (wc.map Prod.fst).Nodup)
    (tokens : List Str) (hc : ∀ w ∈ ws, countIn wc w = tokens.count w) (hs : ∀ w ∈ tokens, w ∈ ws) (i : Nat) (w : Str)
    (hw : ws[i]? = some w) : ∃ p, (unigramOf ws wc)[i]? = some p ∧ p * tokens.length = tokens.count w := by
  have e : countsById ws wc (List.replicate ws.length 0) = ws.map (fun w => tokens.count w) := by
    rw [countsById_eq ws hn wc hk]
    exact List.map_congr_left hc
  unfold unigramOf
  simp only [e, sum_count_cover ws tokens hn hs]
  split
  · rename_i hp
    refine ⟨(tokens.count w : ℚ) / tokens.length, by simp only [List.getElem?_map, hw, Option.map_some], ?_⟩
    rw [div_mul_cancel₀]
    exact_mod_cast (by omega)
  · rename_i hp
    have h0 : tokens = [] := List.length_eq_zero_iff.mp (by omega)
    refine ⟨(tokens.count w : ℚ), by simp only [List.getElem?_map, hw, Option.map_some], ?_⟩
    simp [h0]

theorem countIn_counts {training us : List (List Str)} (hu : UtterancesOf training us) (w : Str) :
    countIn (computeWordCounts training) w = us.flatten.count w := by
  have hi := computeWordCounts_inv training
  rw [← utterancesOf_eq hu] at hi
  unfold countIn
  rw [hi.get]
  split <;> simp [*]

theorem keys_counts {training us : List (List Str)} (hu : UtterancesOf training us) (w : Str) :
    w ∈ (computeWordCounts training).map Prod.fst ↔ w ∈ us.flatten := by
  have hi := C19_words training us hu
  constructor
  · intro h
    obtain ⟨⟨w', n⟩, h1, rfl⟩ := List.mem_map.mp h
    exact ((hi.2 _ _).mp h1).1
  · intro h
    exact List.mem_map.mpr ⟨(w, us.flatten.count w), (hi.2 _ _).mpr ⟨h, rfl⟩, rfl⟩

theorem nodup_counts (training : List (List Str)) : ((computeWordCounts training).map Prod.fst).Nodup :=
  (computeWordCounts_inv training).keys

theorem dictGet?_filter (wc : List (Str × Nat)) (p : Str → Bool) (w : Str) :
    dictGet? (wc.filter (fun x => p x.1)) w = if p w then dictGet? wc w else none := by
  induction wc with
  | nil => simp [dictGet?]
  | cons x wc ih =>
    rw [List.filter_cons]
    by_cases hx : x.1 = w
    · subst hx
      cases hp : p x.1
      · simp only [hp, Bool.false_eq_true, if_false] at ih ⊢; exact ih
      · rw [if_pos rfl, if_pos rfl, dictGet?_cons, dictGet?_cons]
        simp
    · split
      · rw [dictGet?_cons, dictGet?_cons, if_neg hx, if_neg hx, ih]
      · rw [dictGet?_cons, if_neg hx, ih]

/-- Saving in a file without a vocabulary, or with a vocabulary of the same size and no unigram probabilities. -/
theorem saveVocabulary_ok {P : Parsers} {v : Vocab} (hv : Constructible P v) (hu : v.unigram ≠ none) (f : ModelFile)
    (h1 : ∀ o, f.group.classes = some o → o.length = v.numShortlist)
    (h2 : ∀ o, f.group.probs = some o → o.length = v.numShortlist) (h3 : f.group.unigram = none) :
    ∃ st, saveVocabulary v f = .ok (v, ⟨some st, f.other⟩) ∧ v.getState ⟨none, none, none, none⟩ = .ok st ∧
      vocabFromState (some st) = .ok v := by
  obtain ⟨n, ps, inv⟩ := hv.inv
  obtain ⟨u, hu⟩ := Option.ne_none_iff_exists'.mp hu
  have g1 := getState_spec inv f.group h1 h2 (by intro _ _ _ h; rw [h3] at h; cases h)
  have g2 := getState_spec inv ⟨none, none, none, none⟩ (by simp) (by simp) (by simp)
  have hr := inv.roundTrip
  rw [hu] at g1 g2 hr
  refine ⟨_, ?_, g2, hr⟩
  unfold saveVocabulary
  rw [g1]

/-- What the saved vocabulary is read as. -/
theorem savedFile_read {P : Parsers} {v : Vocab} (hv : Constructible P v) {st : VocabState}
    (h : v.getState ⟨none, none, none, none⟩ = .ok st) :
    vocabFromState (some st) = .ok v ∧ st.unigram = v.unigram ∧ st.words = some v.idToWord ∧
      st.classes = some v.classOf ∧ ∃ ps, st.probs = some ps ∧ ps.length = v.numShortlist := by
  obtain ⟨n, ps, inv⟩ := hv.inv
  have g2 : v.getState ⟨none, none, none, none⟩ = .ok ⟨some v.idToWord, some v.classOf, some ps, v.unigram⟩ := by
    rw [getState_spec inv ⟨none, none, none, none⟩ (by simp) (by simp) (by simp)]
    cases v.unigram <;> rfl
  rw [g2] at h
  have hr := inv.roundTrip
  cases h
  exact ⟨hr, rfl, rfl, rfl, ps, rfl, inv.plen⟩

/-- Reading a file whose vocabulary has unigram probabilities. -/
theorem readVocabulary_saved (P : Parsers) (vocabulary : Option (List Str)) (format : VocFormat) (numClasses : Option Nat)
    (training : List (List Str)) (st : VocabState) (other : Bool) (v : Vocab) (h : vocabFromState (some st) = .ok v)
    (hu : v.unigram ≠ none) :
    readVocabulary P vocabulary format numClasses training ⟨some st, other⟩ = .ok (v, ⟨some st, other⟩) := by
  obtain ⟨u, hu⟩ := Option.ne_none_iff_exists'.mp hu
  unfold readVocabulary
  rw [if_pos (by simp [ModelFile.hasKeys])]
  simp only [h, hu]

theorem readVocabulary_legacy (P : Parsers) (vocabulary : Option (List Str)) (format : VocFormat) (numClasses : Option Nat)
    (training : List (List Str)) (st : VocabState) (other : Bool) (v : Vocab) (hv : Constructible P v)
    (hst : v.getState ⟨none, none, none, none⟩ = .ok st) (hu : v.unigram = none) :
    ∃ v' st' rest, readVocabulary P vocabulary format numClasses training ⟨some st, other⟩ = .ok (v', ⟨some st', other⟩) ∧
      Constructible P v' ∧ v'.getState ⟨none, none, none, none⟩ = .ok st' ∧ vocabFromState (some st') = .ok v' ∧
      v'.idToWord = v.idToWord ++ rest ∧
      (∀ w, w ∈ rest ↔ w ∈ (computeWordCounts training).map Prod.fst ∧ w ∉ v.idToWord) ∧
      v'.classOf = v.classOf ∧ v'.classes = v.classes ∧
      v'.unigram = some (unigramOf v'.idToWord (computeWordCounts training)) := by
  obtain ⟨h1, h2, h3, h4, ps, h5, h6⟩ := savedFile_read hv hst
  obtain ⟨n, ps', inv⟩ := hv.inv
  have hk := nodup_counts training
  generalize hwc : computeWordCounts training = wc at *
  have hrest : (v.idToWord ++ (wc.map Prod.fst).filter (fun x => decide (x ∉ v.idToWord))).Nodup := by
    rw [List.nodup_append]
    refine ⟨inv.nodup, hk.filter _, ?_⟩
    intro a ha b hb hab
    subst hab
    have := (List.mem_filter.mp hb).2
    simp [ha] at this
  have hext : Constructible P { v with idToWord := v.idToWord ++ (wc.map Prod.fst).filter (fun x => decide (x ∉ v.idToWord)) } :=
    .extended v _ hv hu hrest
  have inv' := inv.extend hu _ hrest
  obtain ⟨v', ps2, g1, g2, g3, g4, g5, g6, _⟩ := computeProbs_spec inv' wc false
  have hv' : Constructible P v' := .probs _ _ _ _ hext hk g1
  obtain ⟨st', s1, s2, s3⟩ := saveVocabulary_ok hv' (by rw [g5]; simp) ⟨some st, other⟩
    (by intro o ho; simp only [ModelFile.group, Option.getD_some, h4] at ho; cases ho; unfold Vocab.numShortlist; rw [g4])
    (by
      intro o ho
      simp only [ModelFile.group, Option.getD_some, h5] at ho
      cases ho
      rw [h6]; unfold Vocab.numShortlist; rw [g4])
    (by simp only [ModelFile.group, Option.getD_some, h2, hu])
  refine ⟨v', st', _, ?_, hv', s2, s3, g3, ?_, g4, (g6 rfl).2, by rw [g5, g3]⟩
  · unfold readVocabulary
    rw [if_pos (by simp [ModelFile.hasKeys])]
    have g1' := g1
    simp only [hu] at g1'
    simp only [h1, hu, hwc, g1']
    exact s1
  · intro w
    rw [List.mem_filter, decide_eq_true_iff]

theorem readVocabulary_new_inv {P : Parsers} {vocabulary : Option (List Str)} {format : VocFormat} {numClasses : Option Nat}
    {training : List (List Str)} {v : Vocab} {f : ModelFile}
    (h : readVocabulary P vocabulary format numClasses training ⟨none, false⟩ = .ok (v, f)) :
    Constructible P v ∧ v.unigram ≠ none ∧ ∃ st, f = ⟨some st, false⟩ ∧
      v.getState ⟨none, none, none, none⟩ = .ok st ∧ vocabFromState (some st) = .ok v := by
  have hk := nodup_counts training
  have key : ∀ v0, Constructible P v0 → v0.unigram ≠ none → saveVocabulary v0 ⟨none, false⟩ = .ok (v, f) →
      Constructible P v ∧ v.unigram ≠ none ∧ ∃ st, f = ⟨some st, false⟩ ∧
      v.getState ⟨none, none, none, none⟩ = .ok st ∧ vocabFromState (some st) = .ok v := by
    intro v0 h1 h2 h3
    obtain ⟨st, s1, s2, s3⟩ := saveVocabulary_ok h1 h2 ⟨none, false⟩ (by simp [ModelFile.group]) (by simp [ModelFile.group])
      (by simp [ModelFile.group])
    rw [s1] at h3
    cases h3
    exact ⟨h1, h2, st, rfl, s2, s3⟩
  unfold readVocabulary at h
  rw [if_neg (by simp [ModelFile.hasKeys])] at h
  simp only at h
  cases vocabulary with
  | none =>
    simp only at h
    split at h
    · cases h
    · rename_i v0 h0
      rcases fromWordCounts_spec _ numClasses hk _ rfl _ rfl with ⟨_, _, h1⟩ | ⟨v', ps, h1, _, _, _, _, h3⟩
      · rw [h0] at h1; cases h1
      · rw [h0] at h1; cases h1
        exact key _ (.counts _ _ _ hk h0) (by rw [h3]; simp) h
  | some lines =>
    simp only at h
    split at h
    · cases h
    · rename_i v0 h0
      have hc : Constructible P v0 := .file _ _ _ _ h0
      obtain ⟨n, ps, inv⟩ := hc.inv
      obtain ⟨v1, ps', g1, _, _, _, g5, _⟩ := computeProbs_spec inv (computeWordCounts training) (decide (format = .classes))
      rw [g1] at h
      exact key _ (.probs _ _ _ _ hc hk g1) (by rw [g5]; simp) h

/-! ## C90 -/

/-- C90: whatever the options are, the vocabulary that the command uses is one that has unigram probabilities, it is the
one stored in the model file, and when the command is run again on the file, with any options and training text, it uses
exactly the same vocabulary and leaves the file as it is. -/
theorem C90_resume (P : Parsers) (vocabulary : Option (List Str)) (format : VocFormat) (numClasses : Option Nat)
    (training : List (List Str)) (f f' : ModelFile) (v : Vocab) (hf : SavedFile P f)
    (h : readVocabulary P vocabulary format numClasses training f = .ok (v, f')) :
    Constructible P v ∧ v.unigram ≠ none ∧ SavedFile P f' ∧ f'.other = f.other ∧ vocabFromState f'.vocabulary = .ok v ∧
      ∀ vocabulary' format' numClasses' training',
        readVocabulary P vocabulary' format' numClasses' training' f' = .ok (v, f') := by
  have key : ∀ st, f' = ⟨some st, f.other⟩ → Constructible P v → v.unigram ≠ none →
      v.getState ⟨none, none, none, none⟩ = .ok st → vocabFromState (some st) = .ok v →
      Constructible P v ∧ v.unigram ≠ none ∧ SavedFile P f' ∧ f'.other = f.other ∧ vocabFromState f'.vocabulary = .ok v ∧
      ∀ vocabulary' format' numClasses' training',
        readVocabulary P vocabulary' format' numClasses' training' f' = .ok (v, f') := by
    intro st h1 h2 h3 h4 h5
    subst h1
    refine ⟨h2, h3, ?_, rfl, h5, ?_⟩
    · intro st' h'
      cases h'
      exact ⟨v, h2, h4⟩
    · intro vocabulary' format' numClasses' training'
      exact readVocabulary_saved P vocabulary' format' numClasses' training' st f.other v h5 h3
  rcases f with ⟨_ | st, other⟩
  · cases other with
    | true =>
      unfold readVocabulary at h
      simp [ModelFile.hasKeys, vocabFromState] at h
    | false =>
      obtain ⟨h1, h2, st, h3, h4, h5⟩ := readVocabulary_new_inv h
      exact key st h3 h1 h2 h4 h5
  · obtain ⟨v0, h1, h2⟩ := hf st rfl
    cases hu : v0.unigram with
    | some u =>
      have := readVocabulary_saved P vocabulary format numClasses training st other v0 (savedFile_read h1 h2).1 (by simp [hu])
      rw [this] at h
      cases h
      exact key st rfl h1 (by simp [hu]) h2 (savedFile_read h1 h2).1
    | none =>
      obtain ⟨v', st', rest, g1, g2, g3, g4, g5, g6, g7, g8, g9⟩ :=
        readVocabulary_legacy P vocabulary format numClasses training st other v0 h1 h2 hu
      rw [g1] at h
      cases h
      exact key st' rfl g2 (by simp [g9]) g3 g4

/-- C90, a model file that contains a vocabulary with unigram probabilities: the command uses that vocabulary. -/
theorem C90_stored (P : Parsers) (vocabulary : Option (List Str)) (format : VocFormat) (numClasses : Option Nat)
    (training : List (List Str)) (st : VocabState) (other : Bool) (v : Vocab) (hv : Constructible P v) (hu : v.unigram ≠ none)
    (h : v.getState ⟨none, none, none, none⟩ = .ok st) :
    readVocabulary P vocabulary format numClasses training ⟨some st, other⟩ = .ok (v, ⟨some st, other⟩) :=
  readVocabulary_saved P vocabulary format numClasses training st other v (savedFile_read hv h).1 hu

/-- C90, a model file without a vocabulary that is not empty: the command fails. -/
theorem C90_missing (P : Parsers) (vocabulary : Option (List Str)) (format : VocFormat) (numClasses : Option Nat)
    (training : List (List Str)) :
    readVocabulary P vocabulary format numClasses training ⟨none, true⟩ = .error .incompatibleState := by
  unfold readVocabulary
  simp [ModelFile.hasKeys, vocabFromState]

/-- C90, a new model and no vocabulary file: the vocabulary contains the words of the training text and the special
tokens, all in the shortlist, and the unigram probabilities are the relative frequencies among the other words than the
special tokens. -/
theorem C90_text (P : Parsers) (format : VocFormat) (numClasses : Option Nat) (hn : numClasses ≠ some 0)
    (training us : List (List Str)) (hu : UtterancesOf training us) :
    ∃ v f, readVocabulary P none format numClasses training ⟨none, false⟩ = .ok (v, f) ∧
      v.idToWord.Nodup ∧ (∀ w, w ∈ v.idToWord ↔ w ∈ us.flatten ∨ SpecialToken w) ∧ v.numShortlist = v.numWords ∧
      RelativeFrequencies v (us.flatten.filter (fun w => decide (¬ SpecialToken w))) := by
  have hk := nodup_counts training
  generalize hwc' : (computeWordCounts training).filter (fun p => decide (p.1 ≠ sos ∧ p.1 ≠ eos ∧ p.1 ≠ unk)) = wc'
  have hfil : wc' = (computeWordCounts training).filter (fun p => (fun w => decide (¬ SpecialToken w)) p.1) := by
    rw [← hwc']
    apply List.filter_congr
    intro p _
    simp only [SpecialToken, not_or]
  rcases fromWordCounts_spec (computeWordCounts training) numClasses hk _ rfl _ rfl with ⟨h0, h1, _⟩ | ⟨v, ps, h1, h2, _, h3, h4, h5⟩
  · exfalso
    cases numClasses with
    | none => exact h1 (List.length_eq_zero_iff.mp h0)
    | some k => simp only [Option.getD_some] at h0; exact hn (by rw [h0])
  · rw [hwc'] at h3 h4 h5
    have hv : Constructible P v := .counts _ _ _ hk h1
    obtain ⟨st, s1, s2, s3⟩ := saveVocabulary_ok hv (by rw [h5]; simp) ⟨none, false⟩ (by simp [ModelFile.group])
      (by simp [ModelFile.group]) (by simp [ModelFile.group])
    have hk' : (wc'.map Prod.fst).Nodup := by
      rw [← hwc']; exact hk.sublist (List.Sublist.map _ List.filter_sublist)
    have hmem : ∀ w, w ∈ v.idToWord ↔ w ∈ us.flatten ∨ SpecialToken w := by
      intro w
      have hp : w ∈ (sortByCount wc').map Prod.fst ↔ w ∈ us.flatten ∧ ¬ SpecialToken w := by
        rw [((sortByCount_perm wc').map Prod.fst).mem_iff, hfil, ← keys_counts hu]
        simp only [List.mem_map, List.mem_filter, decide_eq_true_iff]
        constructor
        · rintro ⟨p, ⟨h1, h2⟩, rfl⟩
          exact ⟨⟨p, h1, rfl⟩, h2⟩
        · rintro ⟨⟨p, h1, rfl⟩, h2⟩
          exact ⟨p, ⟨h1, h2⟩, rfl⟩
      rw [h3, List.mem_append, hp]
      have : w ∈ [sos, eos, unk] ↔ SpecialToken w := by simp [SpecialToken]
      rw [this]
      tauto
    refine ⟨v, ⟨some st, false⟩, ?_, h2.nodup, hmem, ?_, _, h5, ?_, ?_⟩
    · unfold readVocabulary
      rw [if_neg (by simp [ModelFile.hasKeys])]
      simp only [h1]
      exact s1
    · unfold Vocab.numShortlist Vocab.numWords
      rw [h3, h4]
      simp [(sortByCount_perm wc').length_eq]
    · rw [unigramOf_length]; rfl
    · intro i w hw
      apply unigramOf_frequencies v.idToWord h2.nodup wc' hk' _ ?_ ?_ i w hw
      · intro w' _
        unfold countIn
        rw [hfil, dictGet?_filter _ (fun w => decide (¬ SpecialToken w))]
        by_cases hsp : SpecialToken w'
        · rw [if_neg (by simp [hsp]), List.count_eq_zero_of_not_mem]
          · rfl
          · simp [hsp]
        · rw [if_pos (by simp [hsp]), List.count_filter (by simp [hsp])]
          exact countIn_counts hu w'
      · intro w' hw'
        exact (hmem w').mpr (.inl (List.mem_filter.mp hw').1)

/-- C90, a new model and a vocabulary file: the shortlist consists of the words of the file and the special tokens, the
rest of the vocabulary are the other words of the training text, and the unigram probabilities are the relative
frequencies in the training text. -/
theorem C90_file (P : Parsers) (lines : List Str) (format : VocFormat) (numClasses : Option Nat)
    (training us : List (List Str)) (hu : UtterancesOf training us) (v : Vocab) (f : ModelFile)
    (h : readVocabulary P (some lines) format numClasses training ⟨none, false⟩ = .ok (v, f)) :
    ∃ es, Entries P format lines es ∧ v.idToWord.Nodup ∧
      v.idToWord.take v.numShortlist = es.map entryWord ++ missingSpecials (es.map entryWord) ∧
      (∀ w, w ∈ v.idToWord.drop v.numShortlist ↔
        w ∈ us.flatten ∧ w ∉ es.map entryWord ++ missingSpecials (es.map entryWord)) ∧
      RelativeFrequencies v us.flatten := by
  have hk := nodup_counts training
  unfold readVocabulary at h
  rw [if_neg (by simp [ModelFile.hasKeys])] at h
  simp only at h
  split at h
  · cases h
  · rename_i v0 h0
    have hc : Constructible P v0 := .file _ _ _ _ h0
    obtain ⟨n, ps, inv⟩ := hc.inv
    obtain ⟨v1, ps', g1, g2, g3, g4, g5, _⟩ := computeProbs_spec inv (computeWordCounts training) (decide (format = .classes))
    rw [g1] at h
    obtain ⟨st, s1, _⟩ := saveVocabulary_ok (P := P) (.probs _ _ _ _ hc hk g1) (by rw [g5]; simp) ⟨none, false⟩
      (by simp [ModelFile.group]) (by simp [ModelFile.group]) (by simp [ModelFile.group])
    simp only at h
    rw [s1] at h
    cases h
    obtain ⟨es, rest, e1, e2, e3, e4, e5, _⟩ := C18_contents P lines format _ v0 h0
    have hlen : v.numShortlist = (es.map entryWord ++ missingSpecials (es.map entryWord)).length := by
      unfold Vocab.numShortlist at e4 ⊢
      rw [g4, e4, List.length_append, List.length_map]
    refine ⟨es, e1, g2.nodup, ?_, ?_, _, g5, ?_, ?_⟩
    · rw [g3, e3, hlen, List.take_left]
    · intro w
      rw [g3, e3, hlen, List.drop_left, e5, keys_counts hu]
    · rw [unigramOf_length]; unfold Vocab.numWords; rw [g3]
    · intro i w hw
      rw [g3] at hw
      refine unigramOf_frequencies v0.idToWord inv.nodup _ hk _ (fun w _ => countIn_counts hu w) ?_ i w hw
      intro w' hw'
      rw [e3, List.mem_append, e5, keys_counts hu]
      tauto

/-- C90, a new model and a vocabulary file: the command accepts the file exactly when every line is blank or well-formed,
no word is repeated, and the probabilities of no class sum to zero. -/
theorem C90_accepts (P : Parsers) (lines : List Str) (format : VocFormat) (numClasses : Option Nat)
    (training : List (List Str)) :
    (∃ v f, readVocabulary P (some lines) format numClasses training ⟨none, false⟩ = .ok (v, f)) ↔
    ∃ es, Entries P format lines es ∧ (es.map entryWord).Nodup ∧ ∀ e ∈ es, fileClassSum es e ≠ 0 := by
  have hk := nodup_counts training
  have key : (∃ v f, readVocabulary P (some lines) format numClasses training ⟨none, false⟩ = .ok (v, f)) ↔
      ∃ v, vocabFromFile P lines format ((computeWordCounts training).map Prod.fst) = .ok v := by
    unfold readVocabulary
    rw [if_neg (by simp [ModelFile.hasKeys])]
    simp only
    constructor
    · rintro ⟨v, f, h⟩
      split at h
      · cases h
      · exact ⟨_, by assumption⟩
    · rintro ⟨v0, h0⟩
      have hc : Constructible P v0 := .file _ _ _ _ h0
      obtain ⟨n, ps, inv⟩ := hc.inv
      obtain ⟨v1, ps', g1, g2, g3, g4, g5, _⟩ := computeProbs_spec inv (computeWordCounts training) (decide (format = .classes))
      obtain ⟨st, s1, _⟩ := saveVocabulary_ok (P := P) (.probs _ _ _ _ hc hk g1) (by rw [g5]; simp) ⟨none, false⟩
        (by simp [ModelFile.group]) (by simp [ModelFile.group]) (by simp [ModelFile.group])
      refine ⟨v1, ⟨some st, false⟩, ?_⟩
      rw [h0]
      simp only [g1]
      exact s1
  rw [key]
  constructor
  · rintro ⟨v, h⟩
    obtain ⟨es, _, e1, e2, _⟩ := C18_contents P lines format _ v h
    rcases C18_accepted P lines format _ es e1 e2 with ⟨h1, _⟩ | ⟨_, h1⟩
    · exact ⟨es, e1, e2, h1⟩
    · rw [h] at h1; cases h1
  · rintro ⟨es, e1, e2, e3⟩
    rcases C18_accepted P lines format ((computeWordCounts training).map Prod.fst) es e1 e2 with ⟨_, h1⟩ | ⟨⟨e, h1, h2⟩, _⟩
    · exact h1
    · exact absurd h2 (e3 e h1)

/-- C90, the class membership probabilities with a vocabulary file: those of the file, normalised within each class,
unless the file gives only the classes; then they are relative frequencies in the training text within each class, where
the special tokens are counted at least once (and uniform in a class that does not occur). -/
theorem C90_membership (P : Parsers) (lines : List Str) (format : VocFormat) (numClasses : Option Nat)
    (training us : List (List Str)) (hu : UtterancesOf training us) (v : Vocab) (f : ModelFile)
    (h : readVocabulary P (some lines) format numClasses training ⟨none, false⟩ = .ok (v, f))
    (es : List (Option FileId × ℚ × Str)) (hes : Entries P format lines es) :
    (format ≠ .classes → ∀ (i : Nat) (e : Option FileId × ℚ × Str), es[i]? = some e →
      v.getWordProb i = .ok (e.2.1 / fileClassSum es e)) ∧
    (format = .classes → ∀ (i c : Nat) (w : Str), v.classOf[i]? = some c → v.idToWord[i]? = some w →
      let times (w : Str) : Nat := if SpecialToken w then max (us.flatten.count w) 1 else us.flatten.count w
      let total := ((membersOf v c).map (fun j => times (v.idToWord.getD j []))).sum
      (0 < total → probOf v i * total = times w) ∧ (total = 0 → probOf v i * (membersOf v c).length = 1)) := by
  have hk := nodup_counts training
  unfold readVocabulary at h
  rw [if_neg (by simp [ModelFile.hasKeys])] at h
  simp only at h
  split at h
  · cases h
  · rename_i v0 h0
    have hc : Constructible P v0 := .file _ _ _ _ h0
    obtain ⟨n, ps, inv⟩ := hc.inv
    obtain ⟨v1, ps', g1, g2, g3, g4, g5, g6, _⟩ := computeProbs_spec inv (computeWordCounts training) (decide (format = .classes))
    rw [g1] at h
    obtain ⟨st, s1, _⟩ := saveVocabulary_ok (P := P) (.probs _ _ _ _ hc hk g1) (by rw [g5]; simp) ⟨none, false⟩
      (by simp [ModelFile.group]) (by simp [ModelFile.group]) (by simp [ModelFile.group])
    simp only at h
    rw [s1] at h
    cases h
    constructor
    · intro hf i e he
      obtain ⟨_, g8⟩ := g6 (by simp [hf])
      rw [← C18_probs P lines format _ v0 h0 es hes i e he]
      unfold Vocab.getWordProb Vocab.memberProb
      rw [g4, g8]
    · intro hf i c w hic hiw
      obtain ⟨v2, k1, k2, k3, k4⟩ := C67_relative P v0 hc (computeWordCounts training) hk
      have hd : decide (format = .classes) = true := by simp [hf]
      rw [hd, k1] at g1
      cases g1
      have hocc : ∀ w, countedTimes (computeWordCounts training) w =
          if SpecialToken w then max (us.flatten.count w) 1 else us.flatten.count w := by
        intro w
        unfold countedTimes
        rw [← occurrences_eq _ hk, countIn_counts hu]
        rfl
      have := k4 i c w (by rw [← k3]; exact hic) (by rw [← k2]; exact hiw)
      have hm : membersOf v c = membersOf v0 c := by unfold membersOf Vocab.numShortlist; rw [k3]
      simp only [hocc] at this
      simp only [hm, k2]
      exact this

/-- C90, a model file from an old version, without unigram probabilities: the words of the training text that are not in
the vocabulary are added outside the shortlist, the classes and the IDs of the old words do not change, and the unigram
probabilities are the relative frequencies in the training text. -/
theorem C90_legacy (P : Parsers) (vocabulary : Option (List Str)) (format : VocFormat) (numClasses : Option Nat)
    (training us : List (List Str)) (hu : UtterancesOf training us) (st : VocabState) (other : Bool) (v : Vocab)
    (hv : Constructible P v) (hn : v.unigram = none) (h : v.getState ⟨none, none, none, none⟩ = .ok st) :
    ∃ v' st' rest, readVocabulary P vocabulary format numClasses training ⟨some st, other⟩ = .ok (v', ⟨some st', other⟩) ∧
      v'.idToWord = v.idToWord ++ rest ∧ v'.idToWord.Nodup ∧ (∀ w, w ∈ rest ↔ w ∈ us.flatten ∧ w ∉ v.idToWord) ∧
      v'.classOf = v.classOf ∧ v'.classes = v.classes ∧ RelativeFrequencies v' us.flatten := by
  obtain ⟨v', st', rest, g1, g2, g3, g4, g5, g6, g7, g8, g9⟩ :=
    readVocabulary_legacy P vocabulary format numClasses training st other v hv h hn
  obtain ⟨n, ps, inv⟩ := g2.inv
  have hrest : ∀ w, w ∈ rest ↔ w ∈ us.flatten ∧ w ∉ v.idToWord := by
    intro w
    rw [g6, keys_counts hu]
  refine ⟨v', st', rest, g1, g5, inv.nodup, hrest, g7, g8, _, g9, ?_, ?_⟩
  · rw [unigramOf_length]; rfl
  · intro i w hw
    refine unigramOf_frequencies v'.idToWord inv.nodup _ (nodup_counts training) _ (fun w _ => countIn_counts hu w) ?_ i w hw
    intro w' hw'
    rw [g5, List.mem_append, hrest]
    tauto

/-! ### The hypotheses can be met -/

def exTraining : List (List Str) := [["a b a\n".toList, "c\n".toList], ["b d\n".toList]]

example : ∃ us, UtterancesOf exTraining us ∧ us.flatten.count "a".toList = 2 := by
  refine ⟨exTraining.flatten.map utterance, ?_, by decide +kernel⟩
  unfold UtterancesOf
  repeat' first | exact List.Forall₂.nil | (refine List.Forall₂.cons (by decide +kernel) ?_)

/-- With a class file: the words of the file are in the shortlist, `d` is not. -/
example : ∃ v f, readVocabulary exParsers (some exVocabLines) .classes none exTraining ⟨none, false⟩ = .ok (v, f) ∧
    v.idToWord = ["b".toList, "a".toList, "c".toList, sos, eos, unk, "d".toList] ∧ v.numShortlist = 6 ∧
    (List.range 6).map (probOf v) = [2/3, 1, 1/3, 1, 1, 1] := by
  obtain ⟨vf, h⟩ : ∃ vf, readVocabulary exParsers (some exVocabLines) .classes none exTraining ⟨none, false⟩ = .ok vf ∧
      vf.1.idToWord = ["b".toList, "a".toList, "c".toList, sos, eos, unk, "d".toList] ∧ vf.1.numShortlist = 6 ∧
      (List.range 6).map (probOf vf.1) = [2/3, 1, 1/3, 1, 1, 1] := by
    decide +kernel
  exact ⟨vf.1, vf.2, h⟩

/-- An old model file. -/
example : ∃ v st, Constructible exParsers v ∧ v.unigram = none ∧ v.getState ⟨none, none, none, none⟩ = .ok st := by
  obtain ⟨v, h1, h2, h3⟩ : ∃ v, vocabFromFile exParsers exVocabLines .classes [] = .ok v ∧ v.unigram = none ∧
      ∃ st, v.getState ⟨none, none, none, none⟩ = .ok st ∧ True := by decide +kernel
  obtain ⟨st, h3, _⟩ := h3
  exact ⟨v, st, .file _ _ _ _ h1, h2, h3⟩

end TheanoLM
