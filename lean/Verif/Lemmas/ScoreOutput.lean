import Verif.Props.ScoreOutputSpec
import Verif.Lemmas.ScoreText
import Verif.Lemmas.SlfRoundTrip
import Verif.Lemmas.WordClassFile
/-!
# Lemmas for C88 and C89
-/
set_option linter.unusedSectionVars false

namespace TheanoLM

theorem cell_table {α : Type} {rows cols : Nat} {f : Nat → Nat → α} {t i : Nat} (ht : t < rows) (hi : i < cols) :
    cell (table rows cols f) t i = some (f t i) := by
  simp [cell, table, ht, hi]

theorem idOf_lt {v : Vocab} {unkId : Nat} (hu : v.wordToId unk = some unkId) {w : Str} {i : Nat}
    (h : IdOf v false unkId w i) : i < v.numWords := by
  have hul : unkId < v.idToWord.length := (List.getElem?_eq_some_iff.mp (wordToId_get hu)).1
  cases h with
  | known _ h _ => exact (List.getElem?_eq_some_iff.mp h).1
  | outOfShortlist _ _ hm _ => cases hm
  | unknown _ => exact hul

/-- What the iterator gives for a list of sequences. -/
theorem scoring_batch {P : Parsers} {v : Vocab} (h : Constructible P v) {unkId : Nat} (hu : v.wordToId unk = some unkId)
    {seqs : List (List Tok)} (hne : seqs ≠ []) (h2 : ∀ s ∈ seqs, 2 ≤ s.length) :
    ∃ b : TextBatch, prepareScoringBatch v false seqs = .ok b.given ∧ b.1.Valid v ∧ b.WellFormed ∧ b.1.n = seqs.length ∧
      ∀ i s, seqs[i]? = some s → b.2[i]? = some (s.map Prod.fst) ∧ s.length ≤ b.1.steps + 1 ∧ b.1.numTokens i = s.length ∧
        (∀ t, t ≤ b.1.steps → (b.1.mask t i = 1 ↔ t < s.length)) ∧
        ∃ ids : List Nat, List.Forall₂ (IdOf v false unkId) (s.map Prod.fst) ids ∧
          ∀ t, t < s.length → b.1.word t i = ids.getD t 0 := by
  obtain ⟨unkId', wordIds, fileIds, mask, T, hu', hp, hle, ⟨s0, hs0, hT⟩, hs1, -, hs3, hcols⟩ :=
    C07_training P v h false seqs hne
  rw [hu] at hu'; cases hu'
  have hT2 : 2 ≤ T := by rw [← hT]; exact h2 s0 hs0
  obtain ⟨T', rfl⟩ : ∃ T', T = T' + 1 := ⟨T - 1, by omega⟩
  obtain ⟨b, hb, hbs, hbn⟩ := C38_all_matrices wordIds mask T' seqs.length hs1 hs3
  subst hbs
  have hw : wordIds = table (b.steps + 1) b.n b.word := by
    have := congrArg Prod.fst hb; exact this.symm
  have hm : mask = table (b.steps + 1) b.n b.mask := by
    have := congrArg Prod.snd hb; exact this.symm
  have hmask : ∀ i s, seqs[i]? = some s → ∀ t, t ≤ b.steps →
      (t < s.length → b.mask t i = 1) ∧ (s.length ≤ t → b.mask t i = 0) := by
    intro i s hs t ht
    obtain ⟨ids, -, -, hmc, -, -, -⟩ := hcols i s hs
    have hi : i < b.n := by rw [hbn]; exact (List.getElem?_eq_some_iff.mp hs).1
    have hc : cell mask t i = some (b.mask t i) := by rw [hm]; exact cell_table (by omega) hi
    constructor
    · intro hlt
      have := hmc.1 t 1 (by simp [hlt])
      rw [hc] at this
      exact Option.some.inj this
    · intro hge
      have := hmc.2 t (by simpa using hge) (by omega)
      rw [hc] at this
      exact Option.some.inj this
  have hword : ∀ i s, seqs[i]? = some s → ∃ ids : List Nat, List.Forall₂ (IdOf v false unkId) (s.map Prod.fst) ids ∧
      (∀ t, t < s.length → b.word t i = ids.getD t 0) ∧ ∀ t, s.length ≤ t → t ≤ b.steps → b.word t i = unkId := by
    intro i s hs
    obtain ⟨ids, hids, hwc, -, -, -, -⟩ := hcols i s hs
    have hlen := hids.length_eq
    have hi : i < b.n := by rw [hbn]; exact (List.getElem?_eq_some_iff.mp hs).1
    have hsl := hle s (List.mem_of_getElem? hs)
    refine ⟨ids, by rw [List.forall₂_map_left_iff]; exact hids, ?_, ?_⟩
    · intro t ht
      have h3 := hwc.1 t (ids[t]'(by omega)) (List.getElem?_eq_getElem _)
      have hc : cell wordIds t i = some (b.word t i) := by rw [hw]; exact cell_table (by omega) hi
      rw [hc] at h3
      rw [Option.some.inj h3, List.getD_eq_getElem?_getD, List.getElem?_eq_getElem (by omega), Option.getD_some]
    · intro t h1 h2
      have h3 := hwc.2 t (by omega) (by omega)
      have hc : cell wordIds t i = some (b.word t i) := by rw [hw]; exact cell_table (by omega) hi
      rw [hc] at h3
      exact Option.some.inj h3
  have hnum : ∀ i s, seqs[i]? = some s → b.numTokens i = s.length := by
    intro i s hs
    have hsl := hle s (List.mem_of_getElem? hs)
    unfold MiniBatch.numTokens
    have e : (List.range (b.steps + 1)).filter (fun t => decide (b.mask t i = 1)) =
        (List.range (b.steps + 1)).filter (fun t => decide (t < s.length)) := by
      apply List.filter_congr
      intro t ht
      rw [List.mem_range] at ht
      obtain ⟨g1, g2⟩ := hmask i s hs t (by omega)
      by_cases hlt : t < s.length
      · rw [g1 hlt]; simp [hlt]
      · rw [g2 (by omega)]; simp [hlt]
    rw [e]
    have e2 : b.steps + 1 = s.length + (b.steps + 1 - s.length) := by omega
    rw [e2, List.range_add, List.filter_append, List.filter_eq_self.mpr (by simp)]
    rw [List.filter_eq_nil_iff.mpr (by simp)]
    simp
  refine ⟨(b, seqs.map (fun s => s.map Prod.fst)), ?_, ?_, ?_, hbn, ?_⟩
  · rw [C07_scoring, hp]
    simp only [TextBatch.given, hb]
  · constructor
    · intro t i ht hi
      rw [hbn] at hi
      obtain ⟨ids, hids, g1, g2⟩ := hword i seqs[i] (List.getElem?_eq_getElem hi)
      by_cases hlt : t < seqs[i].length
      · rw [g1 t hlt]
        have hlen := hids.length_eq
        rw [List.length_map] at hlen
        rw [List.getD_eq_getElem?_getD, List.getElem?_eq_getElem (by omega), Option.getD_some]
        exact idOf_lt hu ((List.forall₂_iff_get.mp hids).2 t (by simpa using hlt) (by omega))
      · rw [g2 t (by omega) ht]
        exact (List.getElem?_eq_some_iff.mp (wordToId_get hu)).1
    · intro t i ht hi
      rw [hbn] at hi
      obtain ⟨g1, g2⟩ := hmask i seqs[i] (List.getElem?_eq_getElem hi) t ht
      by_cases hlt : t < seqs[i].length
      · exact Or.inr (g1 hlt)
      · exact Or.inl (g2 (by omega))
  · refine ⟨by simp [hbn], ?_, ?_⟩
    · intro i ws hws
      simp only [List.getElem?_map, Option.map_eq_some_iff] at hws
      obtain ⟨s, hs, rfl⟩ := hws
      rw [List.length_map]
      exact (hnum i s hs).symm
    · intro i hi
      simp only at hi
      rw [hbn] at hi
      refine (hmask i seqs[i] (List.getElem?_eq_getElem hi) 0 (by omega)).1 ?_
      have := h2 seqs[i] (List.getElem_mem _)
      omega
  · intro i s hs
    obtain ⟨ids, hids, g1, -⟩ := hword i s hs
    refine ⟨by simp [hs], hle s (List.mem_of_getElem? hs), hnum i s hs, ?_, ids, hids, g1⟩
    intro t ht
    obtain ⟨m1, m2⟩ := hmask i s hs t ht
    by_cases hlt : t < s.length
    · exact ⟨fun _ => hlt, fun _ => m1 hlt⟩
    · have := m2 (by omega)
      simp only at this ⊢
      rw [this]
      exact ⟨fun e => (by cases e), fun e => absurd e hlt⟩

section
variable {S : Type} [Field S]

theorem sentence_valid' {v : Vocab} {unkId : Nat} (hu : v.wordToId unk = some unkId) {u : List Str} {ids : List Nat}
    (h : List.Forall₂ (IdOf v false unkId) u ids) (hne : ids ≠ []) : (sentenceBatch ids).Valid v := by
  have hpos := List.length_pos_iff.mpr hne
  have hlen := h.length_eq
  constructor
  · intro t i ht _
    simp only [sentenceBatch] at ht ⊢
    rw [List.getD_eq_getElem?_getD, List.getElem?_eq_getElem (by omega), Option.getD_some]
    exact idOf_lt hu ((List.forall₂_iff_get.mp h).2 t (by omega) (by omega))
  · intro t i _ _
    exact Or.inr rfl

/-- The scores of a sequence of a mini-batch are those of the sequence alone. -/
theorem sequenceScores_alone {sc : Scorer S} (hi : sc.BatchIndependent) {b : MiniBatch} (hb : b.Valid sc.vocab) {i : Nat}
    (hin : i < b.n) {ids : List Nat} (hv : (sentenceBatch ids).Valid sc.vocab) (hne : ids ≠ []) (hl : ids.length ≤ b.steps + 1)
    (hm : ∀ t, t ≤ b.steps → (b.mask t i = 1 ↔ t < ids.length)) (hw : ∀ t, t < ids.length → b.word t i = ids.getD t 0)
    {ys : List (Option (Flt S))} (h : sc.SequenceScores b i ys) : sc.SequenceScores (sentenceBatch ids) 0 ys := by
  have hpos := List.length_pos_iff.mpr hne
  have hnet := hi b (sentenceBatch ids) i 0 (ids.length - 1) hb hv hin (by simp [sentenceBatch]) (by omega)
    (by simp [sentenceBatch]) (by
      intro t ht
      exact ⟨hw t (by omega), (hm t (by omega)).mpr (by omega), rfl⟩)
  unfold Scorer.SequenceScores at h ⊢
  have e1 : (List.range b.steps).filter (fun t => decide (b.mask (t + 1) i = 1)) = List.range (ids.length - 1) := by
    have e : (List.range b.steps).filter (fun t => decide (b.mask (t + 1) i = 1)) =
        (List.range b.steps).filter (fun t => decide (t < ids.length - 1)) := by
      apply List.filter_congr
      intro t ht
      rw [List.mem_range] at ht
      have := hm (t + 1) (by omega)
      simp only [decide_eq_decide]
      rw [this]; omega
    rw [e]
    obtain ⟨r, hr⟩ : ∃ r, b.steps = (ids.length - 1) + r := ⟨b.steps - (ids.length - 1), by omega⟩
    rw [hr, List.range_add, List.filter_append, List.filter_eq_self.mpr (by simp)]
    rw [List.filter_eq_nil_iff.mpr (by
      intro t ht
      obtain ⟨k, _, rfl⟩ := List.mem_map.mp ht
      simp only [decide_eq_true_eq]
      omega)]
    simp
  have e2 : (List.range (sentenceBatch ids).steps).filter (fun t => decide ((sentenceBatch ids).mask (t + 1) 0 = 1)) =
      List.range (ids.length - 1) := by
    simp [sentenceBatch]
  rw [e1] at h
  rw [e2]
  rw [List.forall₂_iff_get] at h ⊢
  refine ⟨h.1, fun t h1 h2 => ?_⟩
  have g := h.2 t h1 h2
  simp only [List.get_eq_getElem, List.getElem_range] at g ⊢
  have hlt : t < ids.length - 1 := by simpa using h1
  have hwe : b.word (t + 1) i = (sentenceBatch ids).word (t + 1) 0 := hw (t + 1) (by omega)
  rw [hwe] at g
  refine ⟨g.1, fun hx => ?_⟩
  obtain ⟨x, hx1, hx2⟩ := g.2 hx
  refine ⟨x, hx1, ?_⟩
  unfold Scorer.WordScore at hx2 ⊢
  rw [hwe, hnet t hlt] at hx2
  exact hx2

/-! ## What is written -/

/-- The text about the words of sentence number `k`. -/
def wordText (v : Vocab) (showNum : Flt S → Str) (scale : S) (k : Nat) (s : Sentence S) : Str :=
  "# Sentence ".toList ++ decimal k ++ "\n".toList ++ (writeWordScores v showNum scale s.words s.lps).1

/-- The text about sentence number `k`. -/
def sentenceText (v : Vocab) (exp : S → S) (showNum : Flt S → Str) (scale : S) (k : Nat) (s : Sentence S) : Str :=
  wordText v showNum scale k s ++ "Sentence perplexity: ".toList ++ showNum (sentencePerplexity exp s) ++ "\n\n".toList

/-- What is written about one sentence, and the statistics after it. -/
def writeOne (v : Vocab) (exp : S → S) (showNum : Flt S → Str) (scale : S) (wl : Bool) (st : ScoreStats S) (s : Sentence S) :
    Str × Except Err (ScoreStats S) :=
  if wl = true ∧ s.predicted = [] then (wordText v showNum scale (st.sentences + 1) s, .error .zeroDivision)
  else (if wl then sentenceText v exp showNum scale (st.sentences + 1) s else [], .ok (addSentence st s))

/-- What is written about the sentences, and the statistics after them. -/
def writeAll (v : Vocab) (exp : S → S) (showNum : Flt S → Str) (scale : S) (wl : Bool) :
    List (Sentence S) → ScoreStats S → Str × Except Err (ScoreStats S)
  | [], st => ([], .ok st)
  | s :: rest, st =>
    match writeOne v exp showNum scale wl st s with
    | (out, .error e) => (out, .error e)
    | (out, .ok st) =>
      let r := writeAll v exp showNum scale wl rest st
      (out ++ r.1, r.2)

theorem writeSequence_eq (v : Vocab) (exp : S → S) (showNum : Flt S → Str) (scale : S) (marking : Marking) (wl : Bool)
    (st : ScoreStats S) (ws : List Str) (ys : List (Option (Flt S))) (s : Sentence S)
    (h : mergeSubwords ws ys marking = .ok (s.words, s.lps)) :
    writeSequence v exp showNum scale marking wl st s.tokens ws ys = writeOne v exp showNum scale wl st s := by
  unfold writeSequence writeOne
  rw [h, scoreTextSequence_eq exp marking wl st ws ys s h]
  dsimp only
  by_cases hc : wl = true ∧ s.predicted = []
  · rw [if_pos hc, if_pos hc, if_pos hc.1]; rfl
  · rw [if_neg hc, if_neg hc]
    cases wl with
    | false => rfl
    | true => rfl

theorem writeAll_append (v : Vocab) (exp : S → S) (showNum : Flt S → Str) (scale : S) (wl : Bool) (a b : List (Sentence S))
    (st : ScoreStats S) :
    writeAll v exp showNum scale wl (a ++ b) st =
      match writeAll v exp showNum scale wl a st with
      | (out, .error e) => (out, .error e)
      | (out, .ok st) =>
        let r := writeAll v exp showNum scale wl b st
        (out ++ r.1, r.2) := by
  induction a generalizing st with
  | nil => rfl
  | cons s a ih =>
    rw [List.cons_append, writeAll, writeAll]
    obtain ⟨out, r⟩ := writeOne v exp showNum scale wl st s
    cases r with
    | error e => rfl
    | ok st1 =>
      dsimp only
      rw [ih st1]
      obtain ⟨out2, r2⟩ := writeAll v exp showNum scale wl a st1
      cases r2 with
      | error e => rfl
      | ok st2 => simp

theorem writeSequences_eq (exp : S → S) (showNum : Flt S → Str) (scale : S) (sc : Scorer S) (marking : Marking)
    (hm : marking ≠ .other) (wl : Bool) (b : TextBatch) (hw : b.WellFormed) (r : List (List (Option (Flt S)))) (k : Nat)
    (hk : k + r.length = b.1.n) (hr : ∀ m ys, r[m]? = some ys → sc.SequenceScores b.1 (k + m) ys) :
    ∃ sents, List.Forall₂ (fun (p : TextBatch × Nat) s => ∃ ws ys, p.1.2[p.2]? = some ws ∧
        sc.SequenceScores p.1.1 p.2 ys ∧
        mergeSubwords ws ys marking = .ok (s.words, s.lps) ∧ s.tokens = p.1.1.numTokens p.2)
      ((List.range' k r.length).map (fun i => (b, i))) sents ∧
      ∀ st, writeSequences sc.vocab exp showNum scale marking wl b.1.matrices.2 b.2 r k st =
        writeAll sc.vocab exp showNum scale wl sents st := by
  induction r generalizing k with
  | nil => exact ⟨[], by simp, fun _ => rfl⟩
  | cons ys rest ih =>
    rw [List.length_cons] at hk
    have hlt : k < b.2.length := by rw [hw.count]; omega
    have hws : b.2[k]? = some b.2[k] := List.getElem?_eq_getElem hlt
    have hys : sc.SequenceScores b.1 k ys := hr 0 ys rfl
    have hlen := sequenceScores_length hys (hw.first k (by omega))
    obtain ⟨⟨mw, ml⟩, hmerge⟩ := (C37_succeeds b.2[k] ys marking).mpr ⟨by rw [hlen, hw.length k _ hws], hm⟩
    have hcol : ((b.1.matrices.2.filterMap (·[k]?)).filter (fun m => decide (m = 1))).length = b.1.numTokens k := by
      unfold MiniBatch.matrices MiniBatch.numTokens
      rw [table_column _ _ _ _ (by omega), List.filter_map, List.length_map]
      rfl
    have hrest : ∀ m ys, rest[m]? = some ys → sc.SequenceScores b.1 (k + 1 + m) ys := by
      intro m ys' h
      have := hr (m + 1) ys' (by simpa using h)
      rwa [show k + 1 + m = k + (m + 1) by omega]
    obtain ⟨sents, hs, he⟩ := ih (k + 1) (by omega) hrest
    refine ⟨⟨b.1.numTokens k, mw, ml⟩ :: sents, ?_, fun st => ?_⟩
    · rw [List.length_cons, List.range'_succ, List.map_cons]
      exact .cons ⟨_, ys, hws, hys, hmerge, rfl⟩ hs
    · rw [writeSequences, hws]
      dsimp only
      rw [hcol, writeSequence_eq sc.vocab exp showNum scale marking wl st b.2[k] ys ⟨b.1.numTokens k, mw, ml⟩ hmerge, writeAll]
      obtain ⟨out, r2⟩ := writeOne sc.vocab exp showNum scale wl st ⟨b.1.numTokens k, mw, ml⟩
      cases r2 with
      | error e => rfl
      | ok st2 =>
        dsimp only
        rw [he]

theorem writeBatches_eq [LinearOrder S] {P : Parsers} (sc : Scorer S) (h : sc.Proper P) (showNum : Flt S → Str) (scale : S)
    (marking : Marking) (hm : marking ≠ .other) (wl : Bool) (bs : List TextBatch)
    (hv : ∀ b ∈ bs, b.1.Valid sc.vocab ∧ b.WellFormed) :
    ∃ sents, TextSentences sc marking bs sents ∧
      ∀ st, writeBatches sc showNum scale marking wl (bs.map TextBatch.given) st =
        writeAll sc.vocab sc.exp showNum scale wl sents st := by
  induction bs with
  | nil => exact ⟨[], by simp [TextSentences], fun _ => rfl⟩
  | cons b rest ih =>
    obtain ⟨hb, hw⟩ := hv b (by simp)
    obtain ⟨batch, r, h1, h2, h3, h4⟩ := C38_score_batch P sc h b.1 hb
    obtain ⟨s1, hs1, he1⟩ := writeSequences_eq sc.exp showNum scale sc marking hm wl b hw r 0 (by omega) (by simpa using h4)
    rw [h3, ← List.range_eq_range'] at hs1
    obtain ⟨s2, hs2, he2⟩ := ih (fun b hb => hv b (by simp [hb]))
    refine ⟨s1 ++ s2, ?_, fun st => ?_⟩
    · rw [TextSentences, List.flatMap_cons]
      exact List.rel_append hs1 hs2
    · rw [writeAll_append]
      simp only [List.map_cons, TextBatch.given, writeBatches, h1, h2, he1]
      obtain ⟨out, r2⟩ := writeAll sc.vocab sc.exp showNum scale wl s1 st
      cases r2 with
      | error e => rfl
      | ok st2 =>
        dsimp only
        rw [← he2]

/-! ## The sentences of a text file -/

theorem forall₂_join {α β γ : Type} {A : α → β → Prop} {B : α → γ → Prop} {C : β → γ → Prop} {l : List α} {m : List β}
    {n : List γ} (h1 : List.Forall₂ A l m) (h2 : List.Forall₂ B l n) (h : ∀ a b c, A a b → B a c → C b c) :
    List.Forall₂ C m n := by
  induction h1 generalizing n with
  | nil => cases h2; exact .nil
  | cons ha _ ih =>
    cases h2 with
    | cons hb h2 => exact .cons (h _ _ _ ha hb) (ih h2)

theorem utterance_blank {l : Str} (h : l.any (fun c => !isSpace c) = false) : utterance l = [] := by
  refine utterance_of_ok (C01_blank l (.nil l ?_))
  intro c hc
  have := List.any_eq_false.mp h c hc
  simpa using this

theorem utterance_words {l : Str} (h : l.any (fun c => !isSpace c) = true) : 2 ≤ (utterance l).length := by
  obtain ⟨ws, hws⟩ := Words_total l
  have hne : ws ≠ [] := by
    rintro rfl
    obtain ⟨c, hc, hs⟩ := List.any_eq_true.mp h
    cases hws with
    | nil _ ha => rw [ha c hc] at hs; cases hs
  obtain ⟨u, hu, -, -, hl⟩ := C01_delimited l ws hws hne
  rw [utterance_of_ok hu]
  exact hl

theorem text_sequences {text : Str} {ls : List Str} (hl : Lines text ls) :
    Sequences [text] none ((linesWithWords ls).map (fun l => (utterance l).map (fun w => (w, 0)))) := by
  rw [sequences_iff _ _ (by simp)]
  have e : pend { batchSize := 1, maxLen := none } (linRem [text]) linearInit =
      longEnough (((linTail [text] 0).map lineToks).map (piecesOf none)).flatten := by
    simp [pend, linearInit, piecesOf_nil, linRem_init]
    rfl
  rw [e, linTail, linTail, List.append_nil, ← lines_eq hl]
  clear e hl
  induction ls with
  | nil => rfl
  | cons l ls ih =>
    simp only [List.map_cons, List.flatten_cons, longEnough, List.filter_append] at ih ⊢
    rw [← ih, linesWithWords, List.filter_cons]
    by_cases h : l.any (fun c => !isSpace c) = true
    · rw [if_pos h]
      have h2 := utterance_words h
      have hne : lineToks (l, 0) ≠ [] := by
        intro e
        have := congrArg List.length e
        simp only [lineToks, List.length_map, List.length_nil] at this
        omega
      rw [piecesOf, if_neg hne, List.filter_cons_of_pos (by simpa [lineToks] using h2)]
      rfl
    · rw [if_neg h]
      have h0 : lineToks (l, 0) = [] := by
        simp only [lineToks, utterance_blank (by simpa using h), List.map_nil]
      rw [h0]
      rfl

/-- What is known about a sequence of a mini-batch. -/
def SeqOf (sc : Scorer S) (p : TextBatch × Nat) (seq : List Tok) : Prop :=
  p.1.1.Valid sc.vocab ∧ p.2 < p.1.1.n ∧ 2 ≤ seq.length ∧
  p.1.2[p.2]? = some (seq.map Prod.fst) ∧ seq.length ≤ p.1.1.steps + 1 ∧ p.1.1.numTokens p.2 = seq.length ∧
    (∀ t, t ≤ p.1.1.steps → (p.1.1.mask t p.2 = 1 ↔ t < seq.length)) ∧
    ∃ ids : List Nat, List.Forall₂ (IdOf sc.vocab false sc.unkId) (seq.map Prod.fst) ids ∧
      ∀ t, t < seq.length → p.1.1.word t p.2 = ids.getD t 0

theorem prepared_batches {P : Parsers} {sc : Scorer S} (h : sc.Proper P) (batches : List (List (List Tok)))
    (hne : ∀ b ∈ batches, b ≠ []) (h2 : ∀ b ∈ batches, ∀ s ∈ b, 2 ≤ s.length) :
    ∃ bs : List TextBatch, mapE (prepareScoringBatch sc.vocab false) batches = .ok (bs.map TextBatch.given) ∧
      (∀ b ∈ bs, b.1.Valid sc.vocab ∧ b.WellFormed) ∧
      List.Forall₂ (SeqOf sc) (bs.flatMap (fun b => (List.range b.1.n).map (fun i => (b, i)))) batches.flatten := by
  induction batches with
  | nil => exact ⟨[], rfl, by simp, by simp⟩
  | cons seqs rest ih =>
    obtain ⟨bs, e, hv, hf⟩ := ih (fun b hb => hne b (by simp [hb])) (fun b hb => h2 b (by simp [hb]))
    obtain ⟨b, e1, hb1, hb2, hb3, hb4⟩ := scoring_batch h.vocab h.unk (hne seqs (by simp)) (h2 seqs (by simp))
    refine ⟨b :: bs, ?_, ?_, ?_⟩
    · rw [mapE, e1, e]; rfl
    · intro b' hb'
      rcases List.mem_cons.mp hb' with rfl | hb'
      · exact ⟨hb1, hb2⟩
      · exact hv b' hb'
    · rw [List.flatMap_cons, List.flatten_cons]
      refine List.rel_append ?_ hf
      rw [List.forall₂_map_left_iff, List.forall₂_iff_get]
      refine ⟨by simp [hb3], fun i h3 h4 => ?_⟩
      simp only [List.get_eq_getElem, List.getElem_range]
      have hlt : i < seqs.length := h4
      obtain ⟨g1, g2, g3, g4, g5⟩ := hb4 i seqs[i] (List.getElem?_eq_getElem hlt)
      exact ⟨hb1, by rw [hb3]; exact hlt, h2 seqs (by simp) _ (List.getElem_mem _), g1, g2, g3, g4, g5⟩

/-- The result of scoring a text file. -/
theorem scoreTextFile_eq [LinearOrder S] {P : Parsers} (sc : Scorer S) (h : sc.Proper P) (hi : sc.BatchIndependent)
    (showNum : Flt S → Str) (log : Nat → S) (logBase : Option Nat) (marking : Marking) (hm : marking ≠ .other) (wl : Bool)
    (text : Str) (ls : List Str) (hl : Lines text ls) :
    ∃ sents, List.Forall₂ (SentenceOfLine sc marking) (linesWithWords ls) sents ∧
      ∃ N, ∀ fuel, N ≤ fuel → scoreTextFile sc showNum log logBase marking wl fuel text =
        match writeAll sc.vocab sc.exp showNum (scoreScale log logBase) wl sents ScoreStats.zero with
        | (out, .error e) => some (out, some e)
        | (out, .ok st) =>
          let r := writeSummary sc.exp showNum log logBase st
          some (out ++ r.1, r.2) := by
  obtain ⟨batches, hcut, N, hN⟩ := C03_pass [text] ⟨16, none⟩ (by simp) (by simp) _ (text_sequences hl)
  have hlen : ∀ b ∈ batches, ∀ s ∈ b, 2 ≤ s.length := by
    intro b hb s hs
    have : s ∈ batches.flatten := List.mem_flatten.mpr ⟨b, hb, hs⟩
    rw [hcut.join] at this
    obtain ⟨l, hl, rfl⟩ := List.mem_map.mp this
    rw [List.length_map]
    exact utterance_words (List.mem_filter.mp hl).2
  obtain ⟨bs, e, hv, hf⟩ := prepared_batches h batches hcut.nonempty hlen
  obtain ⟨sents, hs, hw⟩ := writeBatches_eq sc h showNum (scoreScale log logBase) marking hm wl bs hv
  refine ⟨sents, ?_, N, fun fuel hfuel => ?_⟩
  · have := forall₂_join hf hs (C := fun seq s => ∃ ids ys, List.Forall₂ (IdOf sc.vocab false sc.unkId) (seq.map Prod.fst) ids ∧
      sc.SequenceScores (sentenceBatch ids) 0 ys ∧ mergeSubwords (seq.map Prod.fst) ys marking = .ok (s.words, s.lps) ∧
      s.tokens = seq.length) (by
        rintro ⟨b, i⟩ seq s ⟨h1, h2, h3, h4, h5, h6, h7, ids, h8, h9⟩ ⟨ws, ys, g1, g2, g3, g4⟩
        simp only at *
        rw [h4] at g1
        cases g1
        have hl8 := h8.length_eq
        rw [List.length_map] at hl8
        have hne : ids ≠ [] := by
          rintro rfl
          rw [List.length_nil] at hl8
          omega
        refine ⟨ids, ys, h8, ?_, g3, by rw [g4, h6]⟩
        refine sequenceScores_alone hi h1 h2 (sentence_valid' h.unk h8 hne) hne (by omega) ?_ ?_ g2
        · rw [← hl8]; exact h7
        · rw [← hl8]; exact h9)
    rw [hcut.join, List.forall₂_map_left_iff] at this
    refine this.imp ?_
    rintro l s ⟨ids, ys, h1, h2, h3, h4⟩
    have hm : ((utterance l).map (fun w => (w, 0))).map Prod.fst = utterance l := by
      rw [List.map_map]
      exact List.map_id' _
    rw [hm] at h1 h3
    rw [List.length_map] at h4
    exact ⟨utterance l, ids, ys, utterance_ok l, h1, h2, h3, h4⟩
  · unfold scoreTextFile
    rw [hN fuel fuel hfuel hfuel]
    dsimp only
    rw [e]
    dsimp only
    rw [hw]
    rfl

end

end TheanoLM
