import Verif.Lemmas.ClassModelMax
import Verif.Props.WordClassFile
/-!
# Lemmas for C108: the statistics of the text, and the classes of the special words
-/
namespace TheanoLM

theorem utterance_ends (line : Str) : utterance line = [] ∨
    ((utterance line).head? = some sos ∧ (utterance line).getLast? = some eos) := by
  obtain ⟨ws, hw⟩ := Words_total line
  by_cases hne : ws = []
  · subst hne
    exact .inl (utterance_of_ok (C01_blank line hw))
  · obtain ⟨u, g1, g2, g3, _⟩ := C01_delimited line ws hw hne
    right
    rw [utterance_of_ok g1]
    exact ⟨g2, g3⟩

section
variable {P : Parsers} {v : Vocab} {files : List (List Str)} {cfg : OptCfg} {s0 : OptSt}

theorem optStart_counts (h : OptStart P v files cfg s0) {st : BigramStats} (hst : bigramStatistics v files = .ok st) :
    cfg.wordCounts = st.unigram ∧ cfg.wwCounts = st.bigram ∧ cfg.vocabularySize = v.numWords ∧
      cfg.numClasses = v.numClasses := by
  obtain ⟨st', b, hst', hopt⟩ := h.start
  rw [hst] at hst'
  cases hst'
  unfold newOptimizer at hopt
  split at hopt
  · cases hopt
  split at hopt
  · cases hopt
  split at hopt
  · cases hopt
  rename_i hlen
  injection hopt with hopt
  rw [Prod.mk.injEq] at hopt
  rw [← hopt.1]
  exact ⟨rfl, rfl, not_not.mp hlen, rfl⟩

/-- The counts of the optimizer are those of the text. -/
theorem text_counts (h : OptStart P v files cfg s0) {unkId sosId eosId : Nat} (hu : v.idToWord[unkId]? = some unk)
    (hs : v.idToWord[sosId]? = some sos) (he : v.idToWord[eosId]? = some eos) {us : List (List Str)} {ids : List (List Nat)}
    (h1 : UtterancesOf files us) (h2 : IdsOf v unkId us ids) :
    (∀ x y, cfg.wwCounts x y = (textPairs ids).count (x, y)) ∧
    (∀ p ∈ textPairs ids, p.1 < v.numWords ∧ p.2 < v.numWords) ∧
    (∀ x < v.numWords, ∑ y ∈ Finset.range v.numWords, cfg.wwCounts x y =
      cfg.wordCounts x - if x = eosId then (ids.countP (fun s => decide (s ≠ [])) : ℤ) else 0) ∧
    (∀ y < v.numWords, ∑ x ∈ Finset.range v.numWords, cfg.wwCounts x y =
      cfg.wordCounts y - if y = sosId then (ids.countP (fun s => decide (s ≠ [])) : ℤ) else 0) := by
  obtain ⟨st, hst, _, h4⟩ := C19_bigrams P v h.vocab unkId hu files us ids h1 h2
  have h5 := C19_sums P v h.vocab unkId hu files us ids h1 h2 st hst
  obtain ⟨e1, e2, _, _⟩ := optStart_counts h hst
  obtain ⟨n, ps, inv⟩ := h.vocab.inv
  have hids : ∀ s ∈ ids, s = [] ∨ (s.head? = some sosId ∧ s.getLast? = some eosId) := by
    intro s hsm
    rw [idsOf_eq inv.nodup h2, utterancesOf_eq h1, List.map_map] at hsm
    obtain ⟨line, _, rfl⟩ := List.mem_map.mp hsm
    have es : sequenceId v unkId sos = sosId := by 
      have : v.wordToId sos = some sosId := (wordToId_iff inv.nodup).mpr hs
      unfold sequenceId; rw [this]
    have ee : sequenceId v unkId eos = eosId := by 
      have : v.wordToId eos = some eosId := (wordToId_iff inv.nodup).mpr he
      unfold sequenceId; rw [this]
    rcases utterance_ends line with h0 | ⟨h0, h0'⟩
    · left; simp [h0]
    · right
      refine ⟨?_, ?_⟩
      · simp only [Function.comp_apply, List.head?_map, h0, Option.map_some, es]
      · simp only [Function.comp_apply, List.getLast?_map, h0', Option.map_some, ee]
  have hcount : ∀ (f : List Nat → Option Nat) (t a : Nat), f [] = none → (∀ s ∈ ids, s = [] ∨ (s ≠ [] ∧ f s = some t)) →
      (ids.countP (fun s => decide (f s = some a)) : ℤ) = if a = t then (ids.countP (fun s => decide (s ≠ [])) : ℤ) else 0 := by
    intro f t a hf hall
    split
    · rename_i hat
      subst hat
      congr 1
      refine List.countP_congr (fun s hs => ?_)
      rcases hall s hs with rfl | ⟨hne, h0⟩
      · simp [hf]
      · simp [h0, hne]
    · rename_i hat
      rw [Int.natCast_eq_zero, List.countP_eq_zero]
      intro s hs
      rcases hall s hs with rfl | ⟨_, h0⟩
      · simp [hf]
      · simp [h0]; exact fun h => hat h.symm
  refine ⟨?_, ?_, ?_, ?_⟩
  · intro x y
    rw [e2, h4, sum_adjacent]
  · exact textPairs_lt (idsOf_bound inv.nodup hu h2)
  · intro x _
    rw [e1, e2, (h5 x).1, hcount (fun s => s.getLast?) eosId x rfl]
    intro s hs
    rcases hids s hs with h | ⟨h, h'⟩
    · exact .inl h
    · exact .inr ⟨(by rintro rfl; cases h), h'⟩
  · intro x _
    rw [e1, e2, (h5 x).2, hcount (fun s => s.head?) sosId x rfl]
    intro s hs
    rcases hids s hs with h | ⟨h, h'⟩
    · exact .inl h
    · exact .inr ⟨(by rintro rfl; cases h), h⟩

theorem text_maximum (h : OptStart P v files cfg s0) {unkId sosId eosId : Nat} (hu : v.idToWord[unkId]? = some unk)
    (hs : v.idToWord[sosId]? = some sos) (he : v.idToWord[eosId]? = some eos) {us : List (List Str)} {ids : List (List Nat)}
    (h1 : UtterancesOf files us) (h2 : IdsOf v unkId us ids) :
    ∃ K : ℝ, ∀ cl : Nat → Nat, (∀ w < v.numWords, cl w < v.numClasses) → AloneInClass v.numWords cl sosId →
      AloneInClass v.numWords cl eosId →
      IsGreatest (Set.range (fun m : ClassBigram v.numWords cl => m.textProb ids)) (Real.exp (likelihood cfg cl + K)) := by
  obtain ⟨c1, c2, c3, c4⟩ := text_counts h hu hs he h1 h2
  obtain ⟨st, _, hst, _⟩ := h.start
  obtain ⟨_, _, e3, e4⟩ := optStart_counts h hst
  refine ⟨xlogx (cfg.wordCounts eosId) -
    xlogx (cfg.wordCounts eosId - (ids.countP (fun s => decide (s ≠ [])) : ℤ)), fun cl hlt ha hb => ?_⟩
  have hbound := modelBound_eq (C := v.numClasses) c3 c4 (List.getElem?_eq_some_iff.mp hs).1
    (List.getElem?_eq_some_iff.mp he).1 hlt ha hb
  unfold likelihood
  rw [e3, e4, ← hbound]
  constructor
  · obtain ⟨m, hm⟩ := model_eq (cl := cl) c2 c1
    exact ⟨m, by rw [← hm]; exact textProb_eq m ids⟩
  · rintro _ ⟨m, rfl⟩
    show m.textProb ids ≤ _
    rw [textProb_eq]
    exact model_le c2 c1 m

end

/-- The classes of the special words at the end. -/
theorem numNormal_le {v : Vocab} {m : Nat} {ps : List ℚ} (inv : VInv v m ps) {k : Nat} (hk : k ≤ m)
    (h : ∀ j, k ≤ j → j < m → ∃ i w, idsOf v.classOf j = [i] ∧ v.idToWord[i]? = some w ∧ w.head? = some '<') :
    v.numNormal ≤ k := by
  rw [inv.normal, inv.cls]
  unfold numNormalClasses classList
  obtain ⟨d, rfl⟩ : ∃ d, m = k + d := ⟨m - k, by omega⟩
  rw [List.range_add, List.map_append, List.reverse_append]
  rw [List.dropWhile_append_of_pos]
  · refine (List.dropWhile_suffix _).length_le.trans ?_
    simp
  · intro c hc
    rw [List.mem_reverse, List.map_map] at hc
    obtain ⟨j, hj, rfl⟩ := List.mem_map.mp hc
    obtain ⟨i, w, h1, h2, h3⟩ := h (k + j) (by omega) (by have := List.mem_range.mp hj; omega)
    simp [isSpecialClass, h1, h2, h3]

end TheanoLM
