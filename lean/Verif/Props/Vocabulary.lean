import Mathlib.Algebra.Order.BigOperators.Group.List
import Mathlib.Algebra.BigOperators.Ring.List
import Verif.Lemmas.VocabConstruct
/-!
# Properties of vocabularies: C11 to C18
-/
namespace TheanoLM

/-- Used in examples: a result can be checked by evaluation. -/
instance decidableExistsOk {r : Except Err α} {p : α → Prop} [DecidablePred p] : Decidable (∃ v, r = .ok v ∧ p v) :=
  match r with
  | .error _ => .isFalse (by rintro ⟨v, h, _⟩; cases h)
  | .ok v => decidable_of_iff (p v) ⟨fun h => ⟨v, rfl, h⟩, by rintro ⟨_, h, h'⟩; cases h; exact h'⟩

/-- Parsers for examples: single digits; floats are also `-` followed by a digit. -/
def exParsers : Parsers where
  int s := match s with
    | [c] => if c.isDigit then some (c.toNat - 48 : ℤ) else none
    | _ => none
  float s := match s with
    | [c] => if c.isDigit then some ((c.toNat - 48 : ℤ) : ℚ) else none
    | ['-', c] => if c.isDigit then some (-((c.toNat - 48 : ℤ) : ℚ)) else none
    | _ => none

/-- A vocabulary with two words in class 1, one in class 2, and an out-of-shortlist word. -/
def exVocabLines : List Str := ["b 1".toList, " ".toList, "a 2\n".toList, "c 1".toList]

/-! ## C11 -/

/-- C11: IDs and words correspond one to one in every vocabulary. -/
theorem C11_ids (P : Parsers) (v : Vocab) (h : Constructible P v) :
    (∀ i < v.numWords, ∃ w, v.idToWord[i]? = some w ∧ v.wordToId w = some i) ∧
    (∀ w i, v.wordToId w = some i → i < v.numWords ∧ v.idToWord[i]? = some w) ∧
    (∀ w w' i, v.wordToId w = some i → v.wordToId w' = some i → w = w') ∧
    (∀ w, w ∈ v.idToWord ↔ ∃ i, v.wordToId w = some i) := by
  obtain ⟨n, ps, hv⟩ := h.inv
  have h2 : ∀ w i, v.wordToId w = some i → i < v.numWords ∧ v.idToWord[i]? = some w := by
    intro w i hi
    have := wordToId_get hi
    exact ⟨(List.getElem?_eq_some_iff.mp this).1, this⟩
  refine ⟨?_, h2, ?_, ?_⟩
  · intro i hi
    exact ⟨v.idToWord[i], List.getElem?_eq_getElem hi, (wordToId_iff hv.nodup).mpr (List.getElem?_eq_getElem hi)⟩
  · intro w w' i hw hw'
    have h1 := (h2 w i hw).2
    rw [(h2 w' i hw').2] at h1
    exact (Option.some.inj h1).symm
  · intro w
    exact ⟨wordToId_mem, fun ⟨i, hi⟩ => List.mem_of_getElem? (wordToId_get hi)⟩

/-! ## C12 -/

/-- C12: every special token is in the vocabulary exactly once, and in the shortlist. -/
theorem C12_special (P : Parsers) (v : Vocab) (h : Constructible P v) (t : Str) (ht : t = sos ∨ t = eos ∨ t = unk) :
    ∃ i, v.inShortlist i = true ∧ v.wordToId t = some i ∧ ∀ j, v.idToWord[j]? = some t ↔ j = i := by
  obtain ⟨n, ps, hv⟩ := h.inv
  obtain ⟨i, h1, h2, h3⟩ := hv.wordToId ht
  refine ⟨i, by simp [Vocab.inShortlist, h1], h2, ?_⟩
  intro j
  exact ⟨fun hj => getElem?_inj_of_nodup hv.nodup hj h3, fun hj => hj ▸ h3⟩

/-! ## C13 -/

theorem membersOf_eq (v : Vocab) (c : Nat) : membersOf v c = idsOf v.classOf c := rfl

theorem probOf_eq {v : Vocab} {n : Nat} {ps : List ℚ} (h : VInv v n ps) {i : Nat} (hi : i < v.classOf.length) :
    probOf v i = ps.getD i 0 := by
  unfold probOf
  rw [h.getWordProb hi]

theorem VInv.numClasses {v : Vocab} {n : Nat} {ps : List ℚ} (h : VInv v n ps) : v.numClasses = n := by
  unfold Vocab.numClasses
  rw [h.cls, classList_length]

/-- C13, sums: in every vocabulary, every class has words, the words of the shortlist have membership probabilities, and
the membership probabilities of the words of a class sum to one. -/
theorem C13_sums (P : Parsers) (v : Vocab) (h : Constructible P v) :
    (∀ i < v.numShortlist, ∃ p, v.getWordProb i = .ok p) ∧
    ∀ c < v.numClasses, membersOf v c ≠ [] ∧ ((membersOf v c).map (probOf v)).sum = 1 := by
  obtain ⟨n, ps, hv⟩ := h.inv
  refine ⟨fun i hi => ⟨_, hv.getWordProb hi⟩, ?_⟩
  intro c hc
  rw [hv.numClasses] at hc
  rw [membersOf_eq]
  refine ⟨?_, ?_⟩
  · obtain ⟨i, hi⟩ := List.mem_iff_getElem?.mp (hv.surj c hc)
    exact List.ne_nil_of_mem (mem_idsOf.mpr hi)
  · rw [← hv.sums c hc]
    congr 1
    apply List.map_congr_left
    intro i hi
    exact probOf_eq hv (idsOf_lt hi)

theorem probOf_nonneg {v : Vocab} {n : Nat} {ps : List ℚ} (h : VInv v n ps) (hp : ∀ p ∈ ps, 0 ≤ p) (i : Nat) :
    0 ≤ probOf v i := by
  by_cases hi : i < v.classOf.length
  · rw [probOf_eq h hi]
    have : i < ps.length := by rw [h.plen]; exact hi
    simp only [List.getD, List.getElem?_eq_getElem this, Option.getD_some]
    exact hp _ (List.getElem_mem this)
  · unfold probOf Vocab.getWordProb
    rw [List.getElem?_eq_none (by omega)]

/-- C13, recomputing from any counts gives non-negative probabilities (and by `C13_sums` they sum to one); it never
fails. -/
theorem C13_recomputed (P : Parsers) (v : Vocab) (h : Constructible P v) (wc : List (Str × Nat)) :
    ∃ v', computeProbs v wc true = .ok v' ∧ ∀ i, 0 ≤ probOf v' i := by
  obtain ⟨n, ps, hv⟩ := h.inv
  obtain ⟨v', ps', h1, h2, _, _, _, _, h7⟩ := computeProbs_spec hv wc true
  exact ⟨v', h1, probOf_nonneg h2 (h7 rfl)⟩

/-- C13, vocabularies created from counts have non-negative probabilities. -/
theorem C13_counts (wc : List (Str × Nat)) (n : Option Nat) (v : Vocab) (hk : (wc.map Prod.fst).Nodup)
    (h : vocabFromWordCounts wc n = .ok v) (i : Nat) : 0 ≤ probOf v i := by
  rcases fromWordCounts_spec wc n hk _ rfl _ rfl with ⟨_, _, h1⟩ | ⟨v', ps, h1, h2, h3, _⟩
  · rw [h] at h1; cases h1
  · rw [h] at h1; cases h1; exact probOf_nonneg h2 h3 i

/-- C13 for files, partial: the probabilities are non-negative if those in the file are. -/
theorem C13_file_partial (P : Parsers) (lines : List Str) (fmt : VocFormat) (oos : List Str) (v : Vocab)
    (h : vocabFromFile P lines fmt oos = .ok v)
    (hpos : ∀ es, Entries P fmt lines es → ∀ e ∈ es, 0 ≤ e.2.1) (i : Nat) : 0 ≤ probOf v i := by
  obtain ⟨es, b, rest, h1, _, h3, _, _, h6, _, h8⟩ := fromFile_entries h
  refine probOf_nonneg h8 ?_ i
  have hnn : ∀ e ∈ withSpecials es, 0 ≤ e.2.1 := by
    rw [withSpecials_words]
    intro e he
    rcases List.mem_append.mp he with he | he
    · exact hpos es h1 e he
    · obtain ⟨t, _, rfl⟩ := List.mem_map.mp he
      simp
  have hget : ∀ j, 0 ≤ ((withSpecials es).map (fun e => e.2.1)).getD j 0 := by
    intro j
    simp only [List.getD, List.getElem?_map]
    cases hj : (withSpecials es)[j]? with
    | none => simp
    | some e => exact hnn e (List.mem_of_getElem? hj)
  intro p hp
  unfold normProbs at hp
  obtain ⟨j, _, rfl⟩ := List.mem_map.mp hp
  apply div_nonneg (hget j)
  unfold classSum
  apply List.sum_nonneg
  intro x hx
  obtain ⟨j', _, rfl⟩ := List.mem_map.mp hx
  exact hget j'

/-- C13 is violated by a file with a negative probability. -/
theorem C13_violated : ∃ P lines v, vocabFromFile P lines .srilmClasses [] = .ok v ∧ v.getWordProb 0 = .ok (-1) := by
  refine ⟨exParsers, ["X -1 a".toList, "X 2 b".toList], ?_⟩
  decide +kernel

example : ∃ v, vocabFromFile exParsers exVocabLines .classes ["x".toList] = .ok v ∧
    (List.range v.numShortlist).map (probOf v) = [1/2, 1, 1/2, 1, 1, 1] := by
  decide +kernel

/-! ## C14 -/

theorem sum_div_list (l : List Nat) (s : ℚ) : (l.map (fun (n : Nat) => (n : ℚ) / s)).sum = (l.sum : ℚ) / s := by
  induction l with
  | nil => simp
  | cons a l ih => simp only [List.map_cons, List.sum_cons, ih]; push_cast; ring

/-- Number of occurrences of a word according to a table of counts. -/
def occurrences (wc : List (Str × Nat)) (w : Str) : Nat := ((wc.filter (fun p => decide (p.1 = w))).map Prod.snd).sum

theorem occurrences_eq (wc : List (Str × Nat)) (hk : (wc.map Prod.fst).Nodup) (w : Str) : countIn wc w = occurrences wc w := by
  induction wc with
  | nil => rfl
  | cons p rest ih =>
    obtain ⟨x, c⟩ := p
    rw [List.map_cons, List.nodup_cons] at hk
    have ih := ih hk.2
    unfold countIn occurrences at *
    rw [dictGet?_cons]
    by_cases hx : x = w
    · subst hx
      have : dictGet? rest x = none := (dictGet?_none _ _).mpr hk.1
      rw [this] at ih
      simp only [if_true, Option.getD_some, List.filter_cons, decide_true, List.map_cons, List.sum_cons]
      rw [← ih]; rfl
    · rw [if_neg hx, List.filter_cons, if_neg (by simp [hx])]
      exact ih

/-- C14, partial: unigram probabilities are non-negative and proportional to the counts of the vocabulary words, and if
any of those has been counted, they sum to one.  Missing: the start-of-sentence token is not excluded, and if nothing has
been counted, the probabilities are all zeros. -/
theorem C14_partial (P : Parsers) (v : Vocab) (h : Constructible P v) (wc : List (Str × Nat))
    (hk : (wc.map Prod.fst).Nodup) (upd : Bool) :
    ∃ v' u, computeProbs v wc upd = .ok v' ∧ v'.unigram = some u ∧ u.length = v.numWords ∧ (∀ p ∈ u, 0 ≤ p) ∧
      (0 < (v.idToWord.map (occurrences wc)).sum → u.sum = 1) ∧
      (∀ (i : Nat) (w : Str), v.idToWord[i]? = some w →
        u.getD i 0 * ((v.idToWord.map (occurrences wc)).sum : ℕ) = occurrences wc w ) := by
  obtain ⟨n, ps, hv⟩ := h.inv
  obtain ⟨v', ps', h1, h2, h3, h4, h5, _⟩ := computeProbs_spec hv wc upd
  have hc : countsById v.idToWord wc (List.replicate v.idToWord.length 0) = v.idToWord.map (occurrences wc) := by
    rw [countsById_eq _ hv.nodup _ hk]
    apply List.map_congr_left
    intro w _
    exact occurrences_eq wc hk w
  refine ⟨v', _, h1, h5, unigramOf_length _ _, ?_, ?_, ?_⟩
  · intro p hp
    unfold unigramOf at hp
    simp only at hp
    split at hp
    · obtain ⟨k, _, rfl⟩ := List.mem_map.mp hp; positivity
    · obtain ⟨k, _, rfl⟩ := List.mem_map.mp hp; positivity
  · intro hpos
    unfold unigramOf
    simp only [hc]
    rw [if_pos hpos, sum_div_list]
    apply div_self
    exact_mod_cast (by omega)
  · intro i w hw
    unfold unigramOf
    simp only [hc]
    split
    · rename_i hpos
      simp only [List.getD, List.getElem?_map, hw, Option.map_some, Option.getD_some]
      rw [div_mul_cancel₀]
      exact_mod_cast (by omega)
    · rename_i hpos
      have h0 : (v.idToWord.map (occurrences wc)).sum = 0 := by omega
      have : occurrences wc w = 0 := by
        have hm : occurrences wc w ∈ v.idToWord.map (occurrences wc) :=
          List.mem_map.mpr ⟨w, List.mem_of_getElem? hw, rfl⟩
        exact (List.sum_eq_zero_iff (l := v.idToWord.map (occurrences wc))).mp h0 _ hm
      rw [h0, this]; simp

/-- C14 is violated: the start-of-sentence token, which occurs in every utterance, gets probability. -/
theorem C14_violated_sos : ∃ v v' : Vocab, Constructible exParsers v ∧
    computeProbs v [(sos, 1), ("a".toList, 2), (eos, 1)] true = .ok v' ∧ v'.wordToId sos = some 1 ∧
    v'.unigram = some [1/2, 1/4, 1/4, 0] := by
  obtain ⟨v, h1, h2⟩ : ∃ v, vocabFromFile exParsers ["a".toList] .words [] = .ok v ∧ ∃ v', computeProbs v [(sos, 1), ("a".toList, 2), (eos, 1)] true = .ok v' ∧
      v'.wordToId sos = some 1 ∧ v'.unigram = some [1/2, 1/4, 1/4, 0] := by decide +kernel
  obtain ⟨v', h3⟩ := h2
  exact ⟨v, v', .file _ _ _ _ h1, h3⟩

/-- C14 is violated when no vocabulary word has been counted: the probabilities sum to zero. -/
theorem C14_violated_zero : ∃ v v' : Vocab, Constructible exParsers v ∧
    computeProbs v [("b".toList, 5)] true = .ok v' ∧ v'.unigram = some [0, 0, 0, 0] := by
  obtain ⟨v, h1, h2⟩ : ∃ v, vocabFromFile exParsers ["a".toList] .words [] = .ok v ∧ ∃ v', computeProbs v [("b".toList, 5)] true = .ok v' ∧
      v'.unigram = some [0, 0, 0, 0] := by decide +kernel
  obtain ⟨v', h3⟩ := h2
  exact ⟨v, v', .file _ _ _ _ h1, h3⟩

/-- C14 for the vocabulary created from word counts: special tokens are excluded from the unigram probabilities there. -/
theorem C14_counts (wc : List (Str × Nat)) (n : Option Nat) (v : Vocab) (hk : (wc.map Prod.fst).Nodup)
    (h : vocabFromWordCounts wc n = .ok v) :
    ∃ u, v.unigram = some u ∧ ∀ t i, (t = sos ∨ t = eos ∨ t = unk) → v.wordToId t = some i → u[i]? = some 0 := by
  rcases fromWordCounts_spec wc n hk _ rfl _ rfl with ⟨_, _, h1⟩ | ⟨v', ps, h1, h2, _, _, _, h3⟩
  · rw [h] at h1; cases h1
  · rw [h] at h1; cases h1
    refine ⟨_, h3, ?_⟩
    intro t i ht hi
    have hi := wordToId_get hi
    generalize hwc' : wc.filter (fun p => decide (p.1 ≠ sos ∧ p.1 ≠ eos ∧ p.1 ≠ unk)) = wc'
    have hk' : (wc'.map Prod.fst).Nodup := by
      rw [← hwc']; exact hk.sublist (List.Sublist.map _ List.filter_sublist)
    have h0 : countIn wc' t = 0 := by
      unfold countIn
      have : dictGet? wc' t = none := by
        rw [dictGet?_none]
        intro hm
        obtain ⟨p, hp, rfl⟩ := List.mem_map.mp hm
        rw [← hwc', List.mem_filter] at hp
        have := hp.2
        rcases ht with ht | ht | ht <;> simp [ht] at this
      rw [this]; rfl
    unfold unigramOf
    simp only [countsById_eq _ h2.nodup _ hk']
    split <;> simp [hi, h0]

/-! ## C67 -/

/-- How many times a word is counted for the membership probabilities: the special tokens at least once. -/
def countedTimes (wc : List (Str × Nat)) (w : Str) : Nat :=
  if w = sos ∨ w = eos ∨ w = unk then max (occurrences wc w) 1 else occurrences wc w

/-- C67: recomputed membership probabilities are relative frequencies within the class, and uniform in a class whose
words have not been counted. -/
theorem C67_relative (P : Parsers) (v : Vocab) (h : Constructible P v) (wc : List (Str × Nat))
    (hk : (wc.map Prod.fst).Nodup) :
    ∃ v', computeProbs v wc true = .ok v' ∧ v'.idToWord = v.idToWord ∧ v'.classOf = v.classOf ∧
      ∀ (i c : Nat) (w : Str), v.classOf[i]? = some c → v.idToWord[i]? = some w →
        let total := ((membersOf v c).map (fun j => countedTimes wc (v.idToWord.getD j []))).sum
        (0 < total → probOf v' i * total = countedTimes wc w) ∧
        (total = 0 → probOf v' i * (membersOf v c).length = 1) := by
  obtain ⟨n, ps, hv⟩ := h.inv
  obtain ⟨v', counts, h1, h2, h3, h4, h5⟩ := computeProbs_update hv wc hk
  refine ⟨v', h1, h3, h4, ?_⟩
  intro i c w hic hiw total
  have hct : ∀ w, memberCount wc w = countedTimes wc w := by
    intro w; unfold memberCount countedTimes; rw [occurrences_eq wc hk]
  have hil := (List.getElem?_eq_some_iff.mp hic).1
  have htotal : ((idsOf v.classOf c).map (fun j => counts.getD j 0)).sum = total := by
    congr 1
    apply List.map_congr_left
    intro j hj
    have hjl := (List.getElem?_eq_some_iff.mp (mem_idsOf.mp hj)).1
    have hjw : v.idToWord[j]? = some (v.idToWord.getD j []) := by
      have : j < v.idToWord.length := lt_of_lt_of_le hjl hv.short
      rw [List.getD_eq_getElem?_getD, List.getElem?_eq_getElem this]; rfl
    rw [h5 j _ hjw, hct]
  rw [probOf_eq h2 (by rw [h4]; exact hil), updProbs_get _ _ hic, htotal, h5 i w hiw, hct]
  constructor
  · intro hpos
    rw [if_pos hpos, div_mul_cancel₀]
    exact_mod_cast (by omega)
  · intro h0
    rw [if_neg (by omega), membersOf_eq]
    have : ((idsOf v.classOf c).length : ℚ) ≠ 0 := by
      have := List.length_pos_of_mem (mem_idsOf.mpr hic)
      exact_mod_cast (by omega)
    field_simp

example : ∃ v, vocabFromFile exParsers ["a 0".toList, "<s> 0".toList, "b 1".toList, "c 1".toList] .classes [] = .ok v ∧
    ∃ v', computeProbs v [(sos, 3), ("a".toList, 1), (eos, 1)] true = .ok v' ∧
    (List.range v.numShortlist).map (probOf v') = [1/4, 3/4, 1/2, 1/2, 1, 1] := by
  decide +kernel

/-! ## C15 -/

/-- C15: saving a vocabulary to a new file, or over a saved state of the same shape, and loading it gives exactly the same
vocabulary: words, classes, membership probabilities, number of normal classes and unigram probabilities. -/
theorem C15_round_trip (P : Parsers) (v : Vocab) (h : Constructible P v) (old : VocabState)
    (h1 : ∀ o, old.classes = some o → o.length = v.numShortlist)
    (h2 : ∀ o, old.probs = some o → o.length = v.numShortlist)
    (h3 : ∀ u o, v.unigram = some u → old.unigram = some o → o.length = v.numWords)
    (h4 : v.unigram = none → old.unigram = none) :
    ∃ st, v.getState old = .ok st ∧ vocabFromState (some st) = .ok v := by
  obtain ⟨n, ps, hv⟩ := h.inv
  refine ⟨_, getState_spec hv old h1 h2 h3, ?_⟩
  have hr := hv.roundTrip
  cases hu : v.unigram with
  | none => rw [h4 hu]; rw [hu] at hr; exact hr
  | some u => rw [hu] at hr; exact hr

/-- A state without a vocabulary, or with a missing dataset, is rejected. -/
theorem C15_incompatible (s : VocabState) (h : s.words = none ∨ s.classes = none ∨ s.probs = none) :
    vocabFromState none = .error .incompatibleState ∧ vocabFromState (some s) = .error .incompatibleState := by
  refine ⟨rfl, ?_⟩
  rcases s with ⟨_ | w, _ | c, _ | p, u⟩ <;> first | rfl | simp at h

example : ∃ v st, Constructible exParsers v ∧ v.getState ⟨none, none, none, none⟩ = .ok st ∧
    st.classes = some [0, 1, 0, 2, 3, 4] ∧ st.probs = some [1/2, 1, 1/2, 1, 1, 1] := by
  obtain ⟨v, h1, h2⟩ : ∃ v, vocabFromFile exParsers exVocabLines .classes ["x".toList] = .ok v ∧ ∃ st, v.getState ⟨none, none, none, none⟩ = .ok st ∧
      st.classes = some [0, 1, 0, 2, 3, 4] ∧ st.probs = some [1/2, 1, 1/2, 1, 1, 1] := by decide +kernel
  obtain ⟨st, h3⟩ := h2
  exact ⟨v, st, .file _ _ _ _ h1, h3⟩

/-! ## C16 -/

theorem count_mod (m n c : Nat) (hc : c < n) :
    ((List.range m).map (· % n)).count c = m / n + if c < m % n then 1 else 0 := by
  have hn : 0 < n := by omega
  induction m with
  | zero => simp
  | succ m ih =>
    rw [List.range_succ, List.map_append, List.count_append, ih]
    simp only [List.map_cons, List.map_nil, List.count_singleton, beq_iff_eq]
    have h1 := Nat.div_add_mod m n
    have h2 := Nat.mod_lt m hn
    by_cases hl : m % n + 1 = n
    · have e : m + 1 = n * (m / n + 1) := by
        have : n * (m / n + 1) = n * (m / n) + n := by ring
        omega
      have e1 : (m + 1) / n = m / n + 1 := by rw [e]; exact Nat.mul_div_cancel_left _ hn
      have e2 : (m + 1) % n = 0 := by rw [e]; exact Nat.mul_mod_right _ _
      rw [e1, e2]
      split <;> split <;> split <;> omega
    · have e : m + 1 = (m % n + 1) + n * (m / n) := by omega
      have e1 : (m + 1) / n = m / n := by
        rw [e, Nat.add_mul_div_left _ _ hn, Nat.div_eq_of_lt (by omega), Nat.zero_add]
      have e2 : (m + 1) % n = m % n + 1 := by
        rw [e, Nat.add_mul_mod_self_left, Nat.mod_eq_of_lt (by omega)]
      rw [e1, e2]
      split <;> split <;> split <;> omega

/-- C16: creating a vocabulary from counts with `n ≥ 1` classes succeeds.  The words are the counted words that are not
special, in the order of increasing counts, followed by the special tokens.  With `m` normal words there are `min m n`
classes for them; they get all the normal words and their sizes differ by at most one.  Each special token is alone in a
class that follows. -/
theorem C16_balanced (wc : List (Str × Nat)) (n : Nat) (hn : 1 ≤ n) (hk : (wc.map Prod.fst).Nodup) :
    ∃ (v : Vocab) (normal : List (Str × Nat)), vocabFromWordCounts wc (some n) = .ok v ∧
      normal.Perm (wc.filter (fun p => decide (p.1 ≠ sos ∧ p.1 ≠ eos ∧ p.1 ≠ unk))) ∧
      normal.Pairwise (fun a b => a.2 ≤ b.2) ∧
      v.idToWord = normal.map Prod.fst ++ [sos, eos, unk] ∧
      v.numShortlist = normal.length + 3 ∧ v.numClasses = min normal.length n + 3 ∧
      (∀ i < normal.length, ∃ c, v.classOf[i]? = some c ∧ c < min normal.length n) ∧
      (∀ c < min normal.length n, ∀ c' < min normal.length n, v.classOf.count c ≤ v.classOf.count c' + 1) ∧
      (∀ j < 3, v.classOf[normal.length + j]? = some (min normal.length n + j) ∧
        v.classOf.count (min normal.length n + j) = 1) := by
  rcases fromWordCounts_spec wc (some n) hk _ rfl _ rfl with ⟨h0, _, _⟩ | ⟨v, ps, h1, h2, _, h4, h5, _⟩
  · simp at h0; omega
  · generalize hwc' : wc.filter (fun p => decide (p.1 ≠ sos ∧ p.1 ≠ eos ∧ p.1 ≠ unk)) = wc' at *
    simp only [Option.getD_some] at h2 h5
    have hlen : (sortByCount wc').length = wc'.length := (sortByCount_perm wc').length_eq
    have hmodlt : ∀ i < wc'.length, i % n < min wc'.length n := by
      intro i hi
      have h1 := Nat.mod_lt i (by omega : 0 < n)
      have h2 := Nat.mod_le i n
      omega
    have hcount : ∀ c < min wc'.length n, v.classOf.count c = wc'.length / n + if c < wc'.length % n then 1 else 0 := by
      intro c hc
      rw [h5, List.count_append, count_mod _ _ _ (by omega)]
      have : ([min wc'.length n, min wc'.length n + 1, min wc'.length n + 2] : List Nat).count c = 0 := by
        rw [List.count_eq_zero]
        simp only [List.mem_cons, List.not_mem_nil, or_false]
        omega
      rw [this]
      omega
    refine ⟨v, sortByCount wc', h1, sortByCount_perm wc', sortByCount_sorted wc', h4, ?_, ?_, ?_, ?_, ?_⟩
    · simp [Vocab.numShortlist, h5, hlen]
    · rw [h2.numClasses, hlen]
    · intro i hi
      rw [hlen] at hi ⊢
      refine ⟨i % n, ?_, hmodlt i hi⟩
      rw [h5, List.getElem?_append_left (by simpa using hi)]
      simp [hi]
    · rw [hlen]
      intro c hc c' hc'
      rw [hcount c hc, hcount c' hc']
      split <;> split <;> omega
    · rw [hlen]
      intro j hj
      constructor
      · rw [h5, List.getElem?_append_right (by simp)]
        simp only [List.length_map, List.length_range]
        rw [Nat.add_sub_cancel_left]
        rcases j with _ | _ | _ | j
        · rfl
        · rfl
        · rfl
        · omega
      · rw [h5, List.count_append]
        have : ((List.range wc'.length).map (· % n)).count (min wc'.length n + j) = 0 := by
          rw [List.count_eq_zero]
          intro hm
          obtain ⟨i, hi, he⟩ := List.mem_map.mp hm
          have := hmodlt i (List.mem_range.mp hi)
          omega
        rw [this]
        rcases j with _ | _ | _ | j
        · simp
        · simp
        · simp
        · omega

/-- C16 without a number of classes: every word is alone in its class. -/
theorem C16_default (wc : List (Str × Nat)) (hk : (wc.map Prod.fst).Nodup) :
    ∃ v, vocabFromWordCounts wc none = .ok v ∧ v.numShortlist = v.numWords ∧ v.numClasses = v.numWords ∧
      ∀ i < v.numWords, v.classOf[i]? = some i := by
  rcases fromWordCounts_spec wc none hk _ rfl _ rfl with ⟨h0, h1, _⟩ | ⟨v, ps, h1, h2, _, h4, h5, _⟩
  · simp only [Option.getD_none] at h0
    exact absurd (List.length_eq_zero_iff.mp h0) h1
  · generalize hwc' : wc.filter (fun p => decide (p.1 ≠ sos ∧ p.1 ≠ eos ∧ p.1 ≠ unk)) = wc' at *
    simp only [Option.getD_none, Nat.min_self] at h2 h5
    have hlen : (sortByCount wc').length = wc'.length := (sortByCount_perm wc').length_eq
    have hco : v.classOf = List.range (wc'.length + 3) := by
      rw [h5]
      have : (List.range wc'.length).map (· % wc'.length) = List.range wc'.length := by
        conv => rhs; rw [← List.map_id (List.range wc'.length)]
        apply List.map_congr_left
        intro i hi
        exact Nat.mod_eq_of_lt (List.mem_range.mp hi)
      rw [this, List.range_succ, List.range_succ, List.range_succ]
      simp
    have hw : v.numWords = wc'.length + 3 := by simp [Vocab.numWords, h4, hlen]
    refine ⟨v, h1, ?_, ?_, ?_⟩
    · simp [Vocab.numShortlist, hco, hw]
    · rw [h2.numClasses, hw]
    · intro i hi
      rw [hco, List.getElem?_range (by omega)]

/-- With zero classes, the constructor raises `ZeroDivisionError`, unless there are no normal words. -/
theorem C16_zero (wc : List (Str × Nat)) (hk : (wc.map Prod.fst).Nodup) (p : Str × Nat) (hp : p ∈ wc)
    (hs : p.1 ≠ sos ∧ p.1 ≠ eos ∧ p.1 ≠ unk) : vocabFromWordCounts wc (some 0) = .error .zeroDivision := by
  rcases fromWordCounts_spec wc (some 0) hk _ rfl _ rfl with ⟨_, _, h⟩ | ⟨v, ps, h1, h2, _, h4, h5, _⟩
  · exact h
  · exfalso
    generalize hwc' : wc.filter (fun p => decide (p.1 ≠ sos ∧ p.1 ≠ eos ∧ p.1 ≠ unk)) = wc' at *
    have hmem : p ∈ wc' := by
      rw [← hwc', List.mem_filter]
      exact ⟨hp, by simpa using hs⟩
    have hne : wc' ≠ [] := List.ne_nil_of_mem hmem
    have hsort : sortByCount wc' ≠ [] := by
      intro h
      have := (sortByCount_perm wc').length_eq
      rw [h] at this
      exact hne (List.length_eq_zero_iff.mp this.symm)
    unfold vocabFromWordCounts at h1
    simp only [hwc', Option.getD_some] at h1
    cases hl : sortByCount wc' with
    | nil => exact hsort hl
    | cons q l =>
      obtain ⟨w, c⟩ := q
      rw [hl] at h1
      simp [wordCountsLoop, Build.empty] at h1

example : ∃ v, vocabFromWordCounts [("a".toList, 3), (sos, 2), ("b".toList, 1), ("c".toList, 2)] (some 2) = .ok v ∧
    v.idToWord = ["b".toList, "c".toList, "a".toList, sos, eos, unk] ∧ v.classOf = [0, 1, 0, 2, 3, 4] := by
  decide +kernel

/-! ## C17 -/

theorem sum_range_succ (f : Nat → ℚ) (n : Nat) :
    ((List.range (n + 1)).map f).sum = ((List.range n).map f).sum + f n := by
  rw [List.range_succ, List.map_append, List.sum_append]; simp

theorem sum_range_split (f : Nat → ℚ) (a b : Nat) :
    ((List.range (a + b)).map f).sum = ((List.range a).map f).sum + ((List.range b).map (fun j => f (a + j))).sum := by
  induction b with
  | zero => simp
  | succ b ih => rw [← Nat.add_assoc, sum_range_succ, ih, sum_range_succ]; ring

theorem sum_filter_ne (f : Nat → ℚ) (n k : Nat) (h : k < n) :
    (((List.range n).filter (fun i => decide (i ≠ k))).map f).sum = ((List.range n).map f).sum - f k := by
  induction n with
  | zero => omega
  | succ n ih =>
    rw [List.range_succ, List.filter_append, List.map_append, List.map_append, List.sum_append, List.sum_append]
    by_cases hk : k = n
    · subst hk
      have : (List.range k).filter (fun i => decide (i ≠ k)) = List.range k := by
        rw [List.filter_eq_self]
        intro i hi
        have := List.mem_range.mp hi
        simp; omega
      rw [this]
      simp
    · rw [ih (by omega)]
      have : ([n] : List Nat).filter (fun i => decide (i ≠ k)) = [n] := by simp; omega
      rw [this]; ring

theorem sum_range_getD (l : List ℚ) (f : ℚ → ℚ) :
    ((List.range l.length).map (fun j => f (l.getD j 0))).sum = (l.map f).sum := by
  have : (List.range l.length).map (fun j => f (l.getD j 0)) = l.map f := by
    apply List.ext_getElem?
    intro i
    by_cases hi : i < l.length
    · simp [hi]
    · rw [List.getElem?_eq_none (by simp; omega), List.getElem?_eq_none (by simp; omega)]
  rw [this]

/-- C17: when some out-of-shortlist word has a positive unigram probability, distributing the probability of `<unk>` to
the out-of-shortlist words gives a total probability of one over the words other than `<unk>`.  `q` is any distribution
over the shortlist. -/
theorem C17_distribution (P : Parsers) (v : Vocab) (h : Constructible P v) (u : List ℚ) (hu : v.unigram = some u)
    (hpos : (u.drop v.numShortlist).sum ≠ 0) (unkId : Nat) (hunk : v.wordToId unk = some unkId) (q : Nat → ℚ)
    (hq : ((List.range v.numShortlist).map q).sum = 1) :
    ∃ r : List ℚ, v.oosProbs = some (r.map some) ∧ r.length = v.numWords ∧
      ((((List.range v.numWords).filter (fun i => decide (i ≠ unkId))).map
        (fun i => (if i < v.numShortlist then q i else q unkId) * r.getD i 0)).sum = 1) := by
  obtain ⟨n, ps, hv⟩ := h.inv
  have hlen := hv.uni u hu
  have hsl : v.numShortlist ≤ v.numWords := hv.short
  have hul : u.length = v.numWords := hlen
  obtain ⟨i, hi, hi2, _⟩ := hv.wordToId (.inr (.inr rfl))
  rw [hunk] at hi2
  cases hi2
  change unkId < v.numShortlist at hi
  have htl : (u.take v.numShortlist).length = v.numShortlist := by rw [List.length_take]; omega
  refine ⟨(u.take v.numShortlist).map (fun _ => 1) ++ (u.drop v.numShortlist).map (fun p => p / (u.drop v.numShortlist).sum),
    ?_, ?_, ?_⟩
  · unfold Vocab.oosProbs
    rw [hu]
    simp only [hpos, if_false, List.map_append, List.map_map]
    rfl
  · simp; omega
  · rw [sum_filter_ne _ _ _ (by omega)]
    generalize hr : (u.take v.numShortlist).map (fun _ => (1 : ℚ)) ++
      (u.drop v.numShortlist).map (fun p => p / (u.drop v.numShortlist).sum) = r
    have hr1 : ∀ j < v.numShortlist, r.getD j 0 = 1 := by
      intro j hj
      rw [← hr, List.getD, List.getElem?_append_left (by simp; omega), List.getElem?_map,
        List.getElem?_eq_getElem (by omega)]
      rfl
    have hr2 : ∀ j < (u.drop v.numShortlist).length, r.getD (v.numShortlist + j) 0 =
        (u.drop v.numShortlist).getD j 0 / (u.drop v.numShortlist).sum := by
      intro j hj
      rw [← hr, List.getD, List.getElem?_append_right (by simp)]
      rw [List.length_map, htl, Nat.add_sub_cancel_left, List.getElem?_map, List.getElem?_eq_getElem hj]
      simp only [List.getD, List.getElem?_eq_getElem hj, Option.map_some, Option.getD_some]
    have hnum : v.numWords = v.numShortlist + (u.drop v.numShortlist).length := by
      rw [List.length_drop]; omega
    rw [hnum, sum_range_split]
    have e1 : ((List.range v.numShortlist).map (fun i => (if i < v.numShortlist then q i else q unkId) * r.getD i 0)) =
        (List.range v.numShortlist).map q := by
      apply List.map_congr_left
      intro j hj
      rw [List.mem_range] at hj
      rw [if_pos hj, hr1 j hj, mul_one]
    have e2 : ((List.range (u.drop v.numShortlist).length).map (fun j =>
        (if v.numShortlist + j < v.numShortlist then q (v.numShortlist + j) else q unkId) *
          r.getD (v.numShortlist + j) 0)) =
        (List.range (u.drop v.numShortlist).length).map (fun j =>
          (fun x => q unkId * (x / (u.drop v.numShortlist).sum)) ((u.drop v.numShortlist).getD j 0)) := by
      apply List.map_congr_left
      intro j hj
      rw [List.mem_range] at hj
      rw [if_neg (by omega), hr2 j hj]
    rw [e1, e2, sum_range_getD (u.drop v.numShortlist) (fun x => q unkId * (x / (u.drop v.numShortlist).sum)), hq, if_pos hi, hr1 unkId hi]
    have e3 : ∀ l : List ℚ, ∀ s : ℚ, (l.map (fun x => q unkId * (x / s))).sum = q unkId * (l.sum / s) := by
      intro l s
      induction l with
      | nil => simp
      | cons a l ih => simp only [List.map_cons, List.sum_cons, ih]; ring
    rw [e3, div_self hpos]
    ring

/-- If no out-of-shortlist word has been counted, the probabilities of those words are not numbers. -/
theorem C17_not_counted (v : Vocab) (u : List ℚ) (hu : v.unigram = some u) (h0 : (u.drop v.numShortlist).sum = 0) :
    ∃ r, v.oosProbs = some r ∧ ∀ i, v.numShortlist ≤ i → i < u.length → r[i]? = some none := by
  refine ⟨_, by unfold Vocab.oosProbs; rw [hu], ?_⟩
  intro i hi hil
  rw [List.getElem?_append_right (by simp; omega), List.getElem?_map, List.getElem?_eq_getElem]
  · simp [h0]
  · simp; omega

example : ∃ v v' u, vocabFromFile exParsers exVocabLines .classes ["x".toList, "y".toList] = .ok v ∧
    computeProbs v [("a".toList, 5), ("x".toList, 1), ("y".toList, 3)] true = .ok v' ∧ v'.unigram = some u ∧
    (u.drop v'.numShortlist).sum ≠ 0 ∧
    v'.oosProbs = some [some 1, some 1, some 1, some 1, some 1, some 1, some (1/4), some (3/4)] := by
  obtain ⟨v, h1, h2⟩ : ∃ v, vocabFromFile exParsers exVocabLines .classes ["x".toList, "y".toList] = .ok v ∧ ∃ v', computeProbs v [("a".toList, 5), ("x".toList, 1), ("y".toList, 3)] true = .ok v' ∧
      v'.unigram = some [0, 5/9, 0, 0, 0, 0, 1/9, 3/9] ∧ v'.numShortlist = 6 ∧
        v'.oosProbs = some [some 1, some 1, some 1, some 1, some 1, some 1, some (1/4), some (3/4)] := by decide +kernel
  obtain ⟨v', h3, h4, h5, h6⟩ := h2
  refine ⟨v, v', _, h1, h3, h4, ?_, h6⟩
  rw [h5]
  decide +kernel

/-! ## C18 -/

theorem withSpecials_get {es : List (Option φ × ℚ × Str)} {i : Nat} {e : Option φ × ℚ × Str}
    (h : (withSpecials es)[i]? = some e) : es[i]? = some e ∨ (es.length ≤ i ∧ e.1 = none ∧ e.2.1 = 1) := by
  rw [withSpecials_words] at h
  by_cases hi : i < es.length
  · left; rwa [List.getElem?_append_left hi] at h
  · right
    rw [List.getElem?_append_right (by omega)] at h
    obtain ⟨t, _, rfl⟩ := List.mem_map.mp (List.mem_of_getElem? h)
    exact ⟨by omega, rfl, rfl⟩

/-- C18, contents: a file that is read successfully is well-formed and lists no word twice.  The words of the vocabulary are
the listed words in order, the special tokens that are not listed, and then the given out-of-shortlist words that do not
exist yet.  The former two make the shortlist, and two of its words are in the same class exactly when they are the
same word, or the file gives them the same class. -/
theorem C18_contents (P : Parsers) (lines : List Str) (fmt : VocFormat) (oos : List Str) (v : Vocab)
    (h : vocabFromFile P lines fmt oos = .ok v) :
    ∃ es rest, Entries P fmt lines es ∧ (es.map entryWord).Nodup ∧
      v.idToWord = es.map entryWord ++ missingSpecials (es.map entryWord) ++ rest ∧
      v.numShortlist = es.length + (missingSpecials (es.map entryWord)).length ∧
      (∀ w, w ∈ rest ↔ w ∈ oos ∧ w ∉ es.map entryWord ++ missingSpecials (es.map entryWord)) ∧
      ∀ i < v.numShortlist, ∀ j < v.numShortlist, (v.classOf[i]? = v.classOf[j]? ↔
        i = j ∨ ∃ e e', es[i]? = some e ∧ es[j]? = some e' ∧ SameFileClass e e') := by
  obtain ⟨es, b, rest, h1, h2, h3, h4, h5, h6, h7, h8⟩ := fromFile_entries h
  have hw : b.words = es.map entryWord ++ missingSpecials (es.map entryWord) := by
    rw [h3.words, withSpecials_words, List.map_append, List.map_map]
    have : ((fun e => e.2.2) ∘ fun t => ((none, 1, t) : Option FileId × ℚ × Str)) = id := rfl
    rw [this, List.map_id]
    rfl
  refine ⟨es, rest, h1, h2, by rw [h5, hw], ?_, by rw [← hw]; exact h4, ?_⟩
  · unfold Vocab.numShortlist
    rw [h6, h3.inv.len, hw, List.length_append, List.length_map]
  · intro i hi j hj
    unfold Vocab.numShortlist at hi hj
    rw [h6] at hi hj ⊢
    constructor
    · intro he
      have hi' := List.getElem?_eq_getElem hi
      rcases h3.same i j b.classOf[i] hi' (he ▸ hi') with rfl | ⟨f, e, e', g1, g2, g3, g4⟩
      · exact .inl rfl
      · right
        rcases withSpecials_get g1 with g1 | ⟨_, g1, _⟩
        · rcases withSpecials_get g2 with g2 | ⟨_, g2, _⟩
          · exact ⟨e, e', g1, g2, f, g3, g4⟩
          · rw [g2] at g4; cases g4
        · rw [g1] at g3; cases g3
    · rintro (rfl | ⟨e, e', g1, g2, f, g3, g4⟩)
      · rfl
      · have e1 : (withSpecials es)[i]? = some e := by rw [withSpecials_words]; exact getElem?_append_of g1
        have e2 : (withSpecials es)[j]? = some e' := by rw [withSpecials_words]; exact getElem?_append_of g2
        obtain ⟨c, c1, c2⟩ := h3.fids i e f e1 g3
        obtain ⟨c', c3, c4⟩ := h3.fids j e' f e2 g4
        rw [c1] at c3; cases c3
        rw [c2, c4]

theorem classSum_file {b : Build FileId} {es : List (Option FileId × ℚ × Str)} (h : FInv b es) {i c : Nat}
    {e : Option FileId × ℚ × Str} (he : es[i]? = some e) (hc : b.classOf[i]? = some c) :
    classSum b.classOf (es.map (fun e => e.2.1)) c = fileClassSum es e := by
  have hlen := h.len
  unfold classSum idsOf
  rw [hlen]
  cases hf : e.1 with
  | none =>
    have : (List.range es.length).filter (fun j => decide (b.classOf[j]? = some c)) = [i] := by
      have hi : i < es.length := (List.getElem?_eq_some_iff.mp he).1
      have hmem : ∀ j, j ∈ (List.range es.length).filter (fun j => decide (b.classOf[j]? = some c)) ↔ j = i := by
        intro j
        rw [List.mem_filter, List.mem_range, decide_eq_true_eq]
        constructor
        · rintro ⟨_, hj⟩
          rcases h.same j i c hj hc with hji | ⟨f, e1, e2, g1, g2, g3, g4⟩
          · exact hji
          · rw [he] at g2; cases g2
            rw [hf] at g4; cases g4
        · rintro rfl
          exact ⟨hi, hc⟩
      have hnd : ((List.range es.length).filter (fun j => decide (b.classOf[j]? = some c))).Nodup :=
        List.nodup_range.filter _
      generalize (List.range es.length).filter (fun j => decide (b.classOf[j]? = some c)) = l at hmem hnd
      rcases l with _ | ⟨x, _ | ⟨y, l⟩⟩
      · have := (hmem i).mpr rfl
        simp at this
      · rw [(hmem x).mp (by simp)]
      · have h1 := (hmem x).mp (by simp)
        have h2 := (hmem y).mp (by simp)
        subst h1; subst h2
        simp at hnd
    rw [this]
    unfold fileClassSum
    rw [hf]
    simp [he]
  | some f =>
    unfold fileClassSum
    rw [hf]
    simp only
    have hsame : ∀ (j : Nat) (e' : Option FileId × ℚ × Str), es[j]? = some e' →
        (b.classOf[j]? = some c ↔ e'.1 = some f) := by
      intro j e' he'
      constructor
      · intro hj
        rcases h.same j i c hj hc with rfl | ⟨f', e1, e2, g1, g2, g3, g4⟩
        · rw [he] at he'; cases he'; exact hf
        · rw [he] at g2; cases g2
          rw [hf] at g4; cases g4
          rw [he'] at g1; cases g1
          exact g3
      · intro hf'
        obtain ⟨c1, k1, k2⟩ := h.fids i e f he hf
        obtain ⟨c2, k3, k4⟩ := h.fids j e' f he' hf'
        rw [k1] at k3; cases k3
        rw [hc] at k2; cases k2
        exact k4
    -- the two filters select the same positions
    have key : ∀ (l : List (Option FileId × ℚ × Str)) (k : Nat) (g : Nat → ℚ) (p : Nat → Bool),
        (∀ j e', l[j]? = some e' → p (k + j) = decide (e'.1 = some f) ∧ g (k + j) = e'.2.1) →
        (((List.range' k l.length).filter p).map g).sum =
          ((l.filter (fun e' => decide (e'.1 = some f))).map (fun e' => e'.2.1)).sum := by
      intro l
      induction l with
      | nil => intro k g p _; simp
      | cons a l ih =>
        intro k g p hp
        have h0 := hp 0 a rfl
        rw [Nat.add_zero] at h0
        have hr := ih (k + 1) g p (fun j e' hj => by
          have := hp (j + 1) e' (by simpa using hj)
          rw [show k + (j + 1) = k + 1 + j by omega] at this
          exact this)
        rw [List.length_cons, List.range'_succ, List.filter_cons, List.filter_cons, h0.1]
        split
        · rw [List.map_cons, List.map_cons, List.sum_cons, List.sum_cons, hr, h0.2]
        · exact hr
    have := key es 0 (fun j => (es.map (fun e => e.2.1)).getD j 0) (fun j => decide (b.classOf[j]? = some c)) (by
      intro j e' hj
      rw [Nat.zero_add]
      refine ⟨?_, by simp [hj]⟩
      have := hsame j e' hj
      by_cases hx : e'.1 = some f
      · simp [hx, this.mpr hx]
      · rw [decide_eq_false hx, decide_eq_false (fun hc => hx (this.mp hc))])
    rw [List.range_eq_range']
    exact this

/-- C18, membership probabilities: the probability in the file divided by the sum over the class. -/
theorem C18_probs (P : Parsers) (lines : List Str) (fmt : VocFormat) (oos : List Str) (v : Vocab)
    (h : vocabFromFile P lines fmt oos = .ok v) (es : List (Option FileId × ℚ × Str)) (hes : Entries P fmt lines es) :
    ∀ (i : Nat) (e : Option FileId × ℚ × Str), es[i]? = some e → v.getWordProb i = .ok (e.2.1 / fileClassSum es e) := by
  intro i e he
  obtain ⟨es', b, rest, h1, h2, h3, h4, h5, h6, h7, h8⟩ := fromFile_entries h
  rw [Entries_iff] at hes h1
  rw [hes] at h1
  cases h1
  have hi : i < es.length := (List.getElem?_eq_some_iff.mp he).1
  have he' : (withSpecials es)[i]? = some e := by rw [withSpecials_words]; exact getElem?_append_of he
  have hil : i < b.classOf.length := by
    rw [h3.len]; exact (List.getElem?_eq_some_iff.mp he').1
  have hc := List.getElem?_eq_getElem hil
  rw [h8.getWordProb (by rw [h6]; exact hil), normProbs_get _ _ hc, classSum_file h3 he' hc]
  have e1 : ((withSpecials es).map (fun e => e.2.1)).getD i 0 = e.2.1 := by simp [he']
  rw [e1]
  have e2 : fileClassSum (withSpecials es) e = fileClassSum es e := by
    unfold fileClassSum
    cases hf : e.1 with
    | none => rfl
    | some f =>
      simp only
      rw [withSpecials_words, List.filter_append]
      have : ((missingSpecials (es.map (fun e => e.2.2))).map (fun t => ((none, 1, t) : Option FileId × ℚ × Str))).filter
          (fun e' => decide (e'.1 = some f)) = [] := by
        rw [List.filter_eq_nil_iff]
        intro x hx
        obtain ⟨t, _, rfl⟩ := List.mem_map.mp hx
        simp
      rw [this, List.append_nil]
  rw [e2]

/-- C18, acceptance: a well-formed file without repeated words is read, unless the probabilities of a class sum to
zero, which raises `ZeroDivisionError`. -/
theorem C18_accepted (P : Parsers) (lines : List Str) (fmt : VocFormat) (oos : List Str)
    (es : List (Option FileId × ℚ × Str)) (hes : Entries P fmt lines es) (hn : (es.map entryWord).Nodup) :
    ((∀ e ∈ es, fileClassSum es e ≠ 0) ∧ ∃ v, vocabFromFile P lines fmt oos = .ok v) ∨
    ((∃ e ∈ es, fileClassSum es e = 0) ∧ vocabFromFile P lines fmt oos = .error .zeroDivision) := by
  obtain ⟨b, rest, h3, h4, h5, h6, h7⟩ := fromFile_spec P lines fmt oos es hes hn
  rw [h7]
  have hsum : ∀ e ∈ es, fileClassSum (withSpecials es) e = fileClassSum es e := by
    intro e _
    unfold fileClassSum
    cases hf : e.1 with
    | none => rfl
    | some f =>
      simp only
      rw [withSpecials_words, List.filter_append]
      have : ((missingSpecials (es.map (fun e => e.2.2))).map (fun t => ((none, 1, t) : Option FileId × ℚ × Str))).filter
          (fun e' => decide (e'.1 = some f)) = [] := by
        rw [List.filter_eq_nil_iff]
        intro x hx
        obtain ⟨t, _, rfl⟩ := List.mem_map.mp hx
        simp
      rw [this, List.append_nil]
  rcases mkVocab_eq (ws := b.words ++ rest) h3.inv (List.prefix_append _ _) h6 with ⟨g1, g2⟩ | ⟨⟨c, g1, g2⟩, g3⟩
  · left
    refine ⟨?_, _, g2⟩
    intro e he
    obtain ⟨i, hi⟩ := List.mem_iff_getElem?.mp he
    have he' : (withSpecials es)[i]? = some e := by rw [withSpecials_words]; exact getElem?_append_of hi
    have hil : i < b.classOf.length := by
      rw [h3.len]; exact (List.getElem?_eq_some_iff.mp he').1
    have hc := List.getElem?_eq_getElem hil
    have := g1 b.classOf[i] (h3.inv.lt _ (List.getElem_mem hil))
    rw [classSum_file h3 he' hc, hsum e he] at this
    exact this
  · right
    refine ⟨?_, g3⟩
    obtain ⟨i, hi⟩ := List.mem_iff_getElem?.mp (h3.inv.surj c g1)
    have hil : i < (withSpecials es).length := by
      rw [← h3.len]; exact (List.getElem?_eq_some_iff.mp hi).1
    have he := List.getElem?_eq_getElem hil
    rw [classSum_file h3 he hi] at g2
    rcases withSpecials_get he with he' | ⟨_, he1, he2⟩
    · have hm := List.mem_of_getElem? he'
      exact ⟨_, hm, by rw [← hsum _ hm]; exact g2⟩
    · exfalso
      unfold fileClassSum at g2
      rw [he1] at g2
      simp only at g2
      rw [he2] at g2
      norm_num at g2

/-- C18, rejection, partial: a file that is not well-formed or repeats a word is always rejected.  The exception is an
input error, except when a number cannot be parsed; that raises `ValueError`. -/
theorem C18_rejected_partial (P : Parsers) (lines : List Str) (fmt : VocFormat) (oos : List Str)
    (h : ¬ ∃ es, Entries P fmt lines es ∧ (es.map entryWord).Nodup) :
    vocabFromFile P lines fmt oos = .error .inputError ∨
    (vocabFromFile P lines fmt oos = .error .valueError ∧
      ∃ line ∈ lines, (∃ w s, Words line [w, s] ∧ fmt = .classes ∧ P.int s = none) ∨
        (∃ c s w, Words line [c, s, w] ∧ fmt = .srilmClasses ∧ P.float s = none)) := by
  obtain ⟨e, h1, h2⟩ := fromFile_error P lines fmt oos h
  rcases h2 with ⟨fs, hfs, _, h2⟩ | rfl
  · obtain ⟨line, hl, rfl⟩ := List.mem_map.mp hfs
    have hw := Words_pySplit line
    generalize hws : pySplit line = ws at *
    unfold vocFields at h2
    split at h2
    · cases h2
    · split at h2
      · cases h2
      · rename_i hn
        cases h2
        exact .inr ⟨h1, line, hl, .inl ⟨_, _, hw, rfl, hn⟩⟩
    · split at h2
      · cases h2
      · rename_i hn
        cases h2
        exact .inr ⟨h1, line, hl, .inr ⟨_, _, _, hw, rfl, hn⟩⟩
    · cases h2
      exact .inl h1
  · exact .inl h1

/-- C18 is violated: an unparsable number does not give an input error. -/
theorem C18_violated : vocabFromFile exParsers ["a x".toList] .classes [] = .error .valueError := by decide +kernel

/-- A class with zero probabilities is not rejected with an input error either. -/
theorem C18_violated_zero : vocabFromFile exParsers ["X 0 a".toList] .srilmClasses [] = .error .zeroDivision := by
  decide +kernel

example : ∃ v, vocabFromFile exParsers exVocabLines .classes ["x".toList, "a".toList] = .ok v ∧
    v.idToWord = ["b".toList, "a".toList, "c".toList, sos, eos, unk, "x".toList] ∧ v.classOf = [0, 1, 0, 2, 3, 4] := by
  decide +kernel

/-! ## C69 -/

theorem sum_ite_range_eq (n k : Nat) (x : ℚ) (hk : k < n) :
    ((List.range n).map (fun c => if c = k then x else 0)).sum = x := by
  induction n with
  | zero => omega
  | succ n ih =>
    rw [List.range_succ, List.map_append, List.sum_append]
    by_cases hn : k = n
    · have : (List.range n).map (fun c => if c = k then x else 0) = (List.range n).map (fun _ => 0) := by
        apply List.map_congr_left
        intro c hc
        have := List.mem_range.mp hc
        rw [if_neg (by omega)]
      rw [this]
      simp [hn]
    · rw [ih (by omega)]
      have : ¬ n = k := fun e => hn e.symm
      simp [this]

theorem sum_map_div' (l : List ℚ) (s : ℚ) : (l.map (· / s)).sum = l.sum / s := by
  induction l with
  | nil => simp
  | cons a l ih => rw [List.map_cons, List.sum_cons, ih, List.sum_cons]; ring

theorem all_zero_of_sum_zero (l : List ℚ) (h : ∀ p ∈ l, 0 ≤ p) (hs : l.sum = 0) : ∀ p ∈ l, p = 0 := by
  induction l with
  | nil => simp
  | cons a l ih =>
    rw [List.sum_cons] at hs
    have h1 := h a List.mem_cons_self
    have h2 : 0 ≤ l.sum := List.sum_nonneg (fun p hp => h p (List.mem_cons_of_mem _ hp))
    intro p hp
    rcases List.mem_cons.mp hp with rfl | hp
    · linarith
    · exact ih (fun p hp => h p (List.mem_cons_of_mem _ hp)) (by linarith) p hp

theorem sum_filter_class (n : Nat) (xs : List (Nat × ℚ)) (h : ∀ p ∈ xs, p.1 < n) :
    ((List.range n).map (fun c => ((xs.filter (fun p => decide (p.1 = c))).map Prod.snd).sum)).sum =
      (xs.map Prod.snd).sum := by
  induction xs with
  | nil => simp
  | cons p xs ih =>
    have ih := ih (fun q hq => h q (List.mem_cons_of_mem _ hq))
    have hp := h p List.mem_cons_self
    have e : ∀ c, (((p :: xs).filter (fun p => decide (p.1 = c))).map Prod.snd).sum =
        (if c = p.1 then p.2 else 0) + ((xs.filter (fun p => decide (p.1 = c))).map Prod.snd).sum := by
      intro c
      rw [List.filter_cons]
      by_cases hc : p.1 = c
      · simp [hc]
      · have : ¬ c = p.1 := fun e => hc e.symm
        simp [hc, this]
    simp only [e]
    rw [List.sum_map_add, ih, List.map_cons, List.sum_cons]
    congr 1
    exact sum_ite_range_eq n p.1 p.2 hp

/-- Total unigram probability of the shortlist words of class `c`. -/
def classMass (v : Vocab) (u : List ℚ) (c : Nat) : ℚ := ((membersOf v c).map (fun i => u.getD i 0)).sum

theorem filter_zip_range (cs : List Nat) (u : List ℚ) (c : Nat) (hlen : cs.length ≤ u.length) :
    (((cs.zip (u.take cs.length)).filter (fun p => decide (p.1 = c))).map Prod.snd) =
      ((List.range cs.length).filter (fun i => decide (cs[i]? = some c))).map (fun i => u.getD i 0) := by
  induction cs generalizing u with
  | nil => simp
  | cons a cs ih =>
    cases u with
    | nil => simp at hlen
    | cons x u =>
      have := ih u (by simpa using hlen)
      rw [List.length_cons, List.range_succ_eq_map, List.take_succ_cons, List.zip_cons_cons, List.filter_cons,
        List.filter_cons, List.filter_map]
      have e : ((List.range cs.length).filter ((fun i => decide ((a :: cs)[i]? = some c)) ∘ Nat.succ)).map Nat.succ =
          ((List.range cs.length).filter (fun i => decide (cs[i]? = some c))).map Nat.succ := by
        congr 1
      rw [e]
      by_cases ha : a = c
      · simp only [ha, decide_true, if_true, List.map_cons, this, List.getElem?_cons_zero, List.map_map]
        rfl
      · simp only [ha, decide_false, Bool.false_eq_true, if_false, this, List.getElem?_cons_zero, Option.some.injEq,
          List.map_map]
        rfl

/-- C69: the probability of a class is the sum of the unigram probabilities of its words in the shortlist divided by the
sum over the whole shortlist; if a shortlist word has been counted, the probabilities of the classes sum to one. -/
theorem C69_class_probs (P : Parsers) (v : Vocab) (h : Constructible P v) (u : List ℚ) (hu : v.unigram = some u)
    (hnn : ∀ p ∈ u, 0 ≤ p) :
    ∃ r : List ℚ, v.classProbs = some r ∧ r.length = v.numClasses ∧
      (∀ c < v.numClasses, r.getD c 0 * (u.take v.numShortlist).sum = classMass v u c) ∧
      ((u.take v.numShortlist).sum ≠ 0 → r.sum = 1) := by
  obtain ⟨n, ps, hv⟩ := h.inv
  have hlen : v.classOf.length ≤ u.length := by rw [hv.uni u hu]; exact hv.short
  have hpart : ∀ c, (((v.classOf.zip (u.take v.numShortlist)).filter (fun p => decide (p.1 = c))).map Prod.snd).sum =
      classMass v u c := by
    intro c
    unfold classMass membersOf Vocab.numShortlist
    rw [filter_zip_range v.classOf u c hlen]
  have htotal : ((List.range v.numClasses).map (fun c =>
      (((v.classOf.zip (u.take v.numShortlist)).filter (fun p => decide (p.1 = c))).map Prod.snd).sum)).sum =
      (u.take v.numShortlist).sum := by
    rw [sum_filter_class]
    · congr 1
      apply List.map_snd_zip
      simp [Vocab.numShortlist, hlen]
    · intro p hp
      rw [hv.numClasses]
      exact hv.lt _ (List.of_mem_zip hp).1
  have hpos : 0 ≤ (u.take v.numShortlist).sum := List.sum_nonneg (fun p hp => hnn p (List.mem_of_mem_take hp))
  unfold Vocab.classProbs
  rw [hu]
  simp only [htotal]
  refine ⟨_, rfl, ?_, ?_, ?_⟩
  · split <;> simp
  · intro c hc
    split
    · rename_i h0
      simp only [List.map_map, List.getD_eq_getElem?_getD, List.getElem?_map, List.getElem?_range hc, Option.map_some,
        Option.getD_some, Function.comp]
      rw [div_mul_cancel₀ _ (ne_of_gt h0)]
      exact hpart c
    · rename_i h0
      have hz : (u.take v.numShortlist).sum = 0 := le_antisymm (not_lt.mp h0) hpos
      rw [hz, mul_zero]
      have hall : ∀ p ∈ u.take v.numShortlist, p = 0 :=
        all_zero_of_sum_zero _ (fun p hp => hnn p (List.mem_of_mem_take hp)) hz
      symm
      apply List.sum_eq_zero
      intro x hx
      obtain ⟨i, hi, rfl⟩ := List.mem_map.mp hx
      have hil : i < v.numShortlist := by
        unfold membersOf at hi
        exact List.mem_range.mp (List.mem_filter.mp hi).1
      have hiu : i < u.length := lt_of_lt_of_le hil hlen
      rw [List.getD_eq_getElem?_getD, List.getElem?_eq_getElem hiu, Option.getD_some]
      apply hall
      rw [List.mem_take_iff_getElem]
      exact ⟨i, by omega, rfl⟩
  · intro h0
    have : 0 < (u.take v.numShortlist).sum := lt_of_le_of_ne hpos (Ne.symm h0)
    rw [if_pos this, sum_map_div' , htotal, div_self h0]

example : ∃ v, vocabFromFile exParsers ["a 0".toList, "b 1".toList, "c 0".toList] .classes ["x".toList] = .ok v ∧
    ∃ v', computeProbs v [("a".toList, 1), ("b".toList, 3), ("c".toList, 2), ("x".toList, 4)] true = .ok v' ∧
    v'.unigram = some [1/10, 3/10, 1/5, 0, 0, 0, 2/5] ∧ v'.classProbs = some [1/2, 1/2, 0, 0, 0] := by
  decide +kernel

end TheanoLM
