import Verif.Lemmas.ScoreOutput
import Verif.Props.DecodeOutput
/-!
# Properties C88 and C89: what the score command writes
-/
set_option linter.unusedSectionVars false

namespace TheanoLM

section
variable {S : Type} [Field S] [LinearOrder S]

/-! ## Lines -/

theorem joinSp_noNewline {ws : List Str} (h : ∀ w ∈ ws, '\n' ∉ w) : '\n' ∉ joinSp ws := by
  induction ws with
  | nil => simp [joinSp]
  | cons w ws ih =>
    cases ws with
    | nil => exact h w (by simp)
    | cons v vs =>
      have h1 := h w (by simp)
      have h2 := ih (fun x hx => h x (by simp [hx]))
      simp only [joinSp, List.mem_append, List.mem_cons, not_or] at h2 ⊢
      exact ⟨h1, by decide, h2⟩

theorem MergedWord.text_eq (w : MergedWord) : w.text = joinSp w.fields := by
  cases w <;> rfl

theorem wordInfo_spec (v : Vocab) (w : Str) : InfoOf v w (wordInfo v w) := by
  unfold wordInfo
  cases h : v.wordToId w with
  | none => exact .unknown (wordToId_none.mp h)
  | some i =>
    have hi := wordToId_get h
    dsimp only
    split
    · rename_i hs
      exact .shortlist i hi (by simpa [Vocab.inShortlist, Vocab.numShortlist] using hs)
    · rename_i hs
      exact .outOfShortlist i hi (by simpa [Vocab.inShortlist, Vocab.numShortlist] using hs)

theorem InfoOf.noNewline {v : Vocab} {w info : Str} (h : InfoOf v w info) (hw : '\n' ∉ w) : '\n' ∉ info := by
  cases h <;> simp only [List.mem_append, not_or] <;> exact ⟨hw, by decide⟩

theorem MergedWord.info_eq (v : Vocab) (w : MergedWord) : w.info v = joinSp (w.fields.map (wordInfo v)) := by
  cases w <;> rfl

theorem shownHistory_spec (words : List MergedWord) (i : Nat) (h : i + 1 ≤ words.length) :
    ∃ shown, shownHistory words i = joinSp shown ∧ HistoryShown (words.take (i + 1)) shown ∧
      ∀ t ∈ shown, t = "...".toList ∨ ∃ w ∈ words, t = joinSp w.fields := by
  have hl : (words.take (i + 1)).length = i + 1 := by rw [List.length_take]; omega
  unfold shownHistory HistoryShown
  rw [hl]
  by_cases hi : 2 < i
  · rw [if_pos hi]
    refine ⟨_, rfl, ⟨fun h => by omega, fun _ => ?_⟩, ?_⟩
    · have hd : ((words.drop (i - 2)).take 3).length = 3 := by
        rw [List.length_take, List.length_drop]; omega
      obtain ⟨a, b, c, e⟩ := List.length_eq_three.mp hd
      refine ⟨words.take (i - 2), a, b, c, ?_, ?_⟩
      · rw [← e, show i + 1 = (i - 2) + 3 by omega, List.take_add]
      · rw [e]
        simp only [List.map_cons, List.map_nil, MergedWord.text_eq]
    · intro t ht
      rcases List.mem_cons.mp ht with rfl | ht
      · exact .inl rfl
      · obtain ⟨w, hw, rfl⟩ := List.mem_map.mp ht
        exact .inr ⟨w, List.mem_of_mem_drop (List.mem_of_mem_take hw), w.text_eq⟩
  · rw [if_neg hi]
    refine ⟨_, rfl, ⟨fun _ => List.map_congr_left (fun w _ => w.text_eq), fun h => by omega⟩, ?_⟩
    intro t ht
    obtain ⟨w, hw, rfl⟩ := List.mem_map.mp ht
    exact .inr ⟨w, List.mem_of_mem_take hw, w.text_eq⟩

theorem divBy_spec (x : Flt S) (scale : S) : InBase scale x (x.divBy scale) := by
  refine ⟨?_, ?_⟩
  · rintro a rfl; rfl
  · intro h
    cases x with
    | fin a => exact absurd rfl (h a)
    | _ => rfl

theorem isLine_mk {b : Str} (h : '\n' ∉ b) : IsLine (b ++ "\n".toList) := ⟨b, rfl, h⟩

theorem isLine_split {a b : Str} (ha : '\n' ∉ a) (hb : '\n' ∉ b) : IsLine (a ++ b ++ "\n".toList) := by
  refine isLine_mk ?_
  rw [List.mem_append, not_or]
  exact ⟨ha, hb⟩

/-- The words of the sentence have no newlines. -/
def CleanSentence (s : Sentence S) : Prop := ∀ w ∈ s.words, ∀ f ∈ w.fields, '\n' ∉ f

theorem wordScoreLine_none (v : Vocab) (showNum : Flt S → Str) (words : List MergedWord) (i : Nat) (w : MergedWord) {t : Str}
    (e : shownHistory words i = t) :
    wordScoreLine v showNum words i w none = "p(".toList ++ joinSp w.fields ++ " | ".toList ++ t ++
      ") is not predicted  [".toList ++ joinSp (w.fields.map (wordInfo v)) ++ "]\n".toList := by
  unfold wordScoreLine
  rw [e, MergedWord.text_eq, MergedWord.info_eq]

theorem wordScoreLine_some (v : Vocab) (showNum : Flt S → Str) (words : List MergedWord) (i : Nat) (w : MergedWord) {t : Str}
    (e : shownHistory words i = t) (x : Flt S) :
    wordScoreLine v showNum words i w (some x) = "log(p(".toList ++ joinSp w.fields ++ " | ".toList ++ t ++
      ")) = ".toList ++ showNum x ++ "  [".toList ++ joinSp (w.fields.map (wordInfo v)) ++ "]\n".toList := by
  unfold wordScoreLine
  rw [e, MergedWord.text_eq, MergedWord.info_eq]

theorem isLine_bracket {a : Str} (ha : '\n' ∉ a) : IsLine (a ++ "]\n".toList) := by
  refine ⟨a ++ "]".toList, ?_, ?_⟩
  · rw [List.append_assoc]; rfl
  · rw [List.mem_append, not_or]
    exact ⟨ha, by decide⟩

theorem wordScoreLine_spec {v : Vocab} {showNum : Flt S → Str} (hn : ∀ x, '\n' ∉ showNum x) (scale : S) (s : Sentence S)
    (hc : CleanSentence s) (i : Nat) (w : MergedWord) (hw : s.words[i + 1]? = some w) (lp : Option (Flt S))
    (hlp : s.lps[i]? = some lp) :
    WordLine v showNum scale s i (wordScoreLine v showNum s.words i w (lp.map (fun x => x.divBy scale))) ∧
      IsLine (wordScoreLine v showNum s.words i w (lp.map (fun x => x.divBy scale))) := by
  have hlt := (List.getElem?_eq_some_iff.mp hw).1
  obtain ⟨shown, e, hs, hm⟩ := shownHistory_spec s.words i (by omega)
  have hinfo : List.Forall₂ (InfoOf v) w.fields (w.fields.map (wordInfo v)) := by
    rw [List.forall₂_map_right_iff, List.forall₂_same]
    exact fun f _ => wordInfo_spec v f
  have c1 : ∀ w ∈ s.words, '\n' ∉ joinSp w.fields := fun w hw => joinSp_noNewline (hc w hw)
  have c2 := c1 w (List.mem_of_getElem? hw)
  have c3 : '\n' ∉ joinSp shown := by
    refine joinSp_noNewline (fun t ht => ?_)
    rcases hm t ht with rfl | ⟨w, hw, rfl⟩
    · decide
    · exact c1 w hw
  have c4 : '\n' ∉ joinSp (w.fields.map (wordInfo v)) := by
    refine joinSp_noNewline (fun t ht => ?_)
    obtain ⟨f, hf, rfl⟩ := List.mem_map.mp ht
    exact (wordInfo_spec v f).noNewline (hc w (List.mem_of_getElem? hw) f hf)
  constructor
  · refine ⟨w, shown, _, hw, hs, hinfo, ?_, ?_⟩
    · intro h
      have hq : lp = none := Option.some.inj (hlp.symm.trans h)
      rw [hq]
      exact wordScoreLine_none v showNum s.words i w e
    · intro x h
      have hq : lp = some x := Option.some.inj (hlp.symm.trans h)
      refine ⟨x.divBy scale, divBy_spec x scale, ?_⟩
      rw [hq]
      exact wordScoreLine_some v showNum s.words i w e _
  · cases lp with
    | none =>
      rw [Option.map_none, wordScoreLine_none v showNum s.words i w e]
      refine isLine_bracket ?_
      simp only [List.mem_append, not_or]
      exact ⟨⟨⟨⟨⟨by decide, c2⟩, by decide⟩, c3⟩, by decide⟩, c4⟩
    | some x =>
      rw [Option.map_some, wordScoreLine_some v showNum s.words i w e]
      refine isLine_bracket ?_
      simp only [List.mem_append, not_or]
      exact ⟨⟨⟨⟨⟨⟨⟨by decide, c2⟩, by decide⟩, c3⟩, by decide⟩, hn _⟩, by decide⟩, c4⟩

theorem wordScoreLines_spec {v : Vocab} {showNum : Flt S → Str} (hn : ∀ x, '\n' ∉ showNum x) (scale : S) (s : Sentence S)
    (hc : CleanSentence s) (hl : s.lps.length + 1 = s.words.length) (rest : List (Option (Flt S))) (k : Nat)
    (hr : s.lps.drop k = rest) :
    ∃ ls, wordScoreLines v showNum s.words (rest.map (fun x => x.map (fun x => x.divBy scale))) k = (ls.flatten, none) ∧
      List.Forall₂ (fun i line => WordLine v showNum scale s i line) (List.range' k rest.length) ls ∧ ∀ l ∈ ls, IsLine l := by
  induction rest generalizing k with
  | nil => exact ⟨[], rfl, .nil, by simp⟩
  | cons lp rest ih =>
    have hk : k < s.lps.length := by
      by_contra hk
      rw [List.drop_eq_nil_of_le (by omega)] at hr
      cases hr
    rw [List.drop_eq_getElem_cons hk] at hr
    injection hr with h1 h2
    obtain ⟨ls, e, hf, hi⟩ := ih (k + 1) h2
    have hw : s.words[k + 1]? = some s.words[k + 1] := List.getElem?_eq_getElem (by omega)
    have hlp : s.lps[k]? = some lp := by rw [List.getElem?_eq_getElem hk, h1]
    obtain ⟨g1, g2⟩ := wordScoreLine_spec (v := v) hn scale s hc k _ hw lp hlp
    refine ⟨wordScoreLine v showNum s.words k s.words[k + 1] (lp.map (fun x => x.divBy scale)) :: ls, ?_, ?_, ?_⟩
    · rw [List.map_cons, wordScoreLines, hw]
      dsimp only
      rw [e]
      rfl
    · rw [List.length_cons, List.range'_succ]
      exact .cons g1 hf
    · intro l hl
      rcases List.mem_cons.mp hl with rfl | hl
      · exact g2
      · exact hi l hl

theorem wordText_spec {v : Vocab} {showNum : Flt S → Str} (hn : ∀ x, '\n' ∉ showNum x) (scale : S) (s : Sentence S)
    (hc : CleanSentence s) (hl : s.lps.length + 1 = s.words.length) (k : Nat) :
    ∃ ls, wordText v showNum scale k s = ls.flatten ∧ WordLines v showNum scale k s ls ∧ ∀ l ∈ ls, IsLine l := by
  obtain ⟨ls, e, hf, hi⟩ := wordScoreLines_spec (v := v) hn scale s hc hl s.lps 0 rfl
  refine ⟨("# Sentence ".toList ++ decimal k ++ "\n".toList) :: ls, ?_, ⟨ls, rfl, ?_⟩, ?_⟩
  · unfold wordText writeWordScores
    rw [if_neg (by omega), e]
    rfl
  · rw [List.range_eq_range']; exact hf
  · intro l hl
    rcases List.mem_cons.mp hl with rfl | hl
    · exact isLine_split (by decide) (FieldWord.newline (decimal_field k))
    · exact hi l hl

theorem sentenceText_spec {v : Vocab} {exp : S → S} {showNum : Flt S → Str} (hn : ∀ x, '\n' ∉ showNum x) (scale : S)
    (s : Sentence S) (hc : CleanSentence s) (hl : s.lps.length + 1 = s.words.length) (k : Nat) :
    ∃ ls, sentenceText v exp showNum scale k s = ls.flatten ∧ SentenceLines v exp showNum scale k s ls ∧
      ∀ l ∈ ls, IsLine l := by
  obtain ⟨ws, e, hf, hi⟩ := wordText_spec (v := v) hn scale s hc hl k
  refine ⟨_, ?_, ⟨ws, hf, rfl⟩, ?_⟩
  · unfold sentenceText
    rw [e, List.flatten_append]
    have : "\n\n".toList = "\n".toList ++ "\n".toList := by decide
    rw [this]
    simp only [List.flatten_cons, List.flatten_nil, List.append_assoc, List.append_nil, sentencePerplexity, crossEntropyOf]
  · intro l hl
    rcases List.mem_append.mp hl with hl | hl
    · exact hi l hl
    · simp only [List.mem_cons, List.not_mem_nil, or_false] at hl
      rcases hl with rfl | rfl
      · exact isLine_split (by decide) (hn _)
      · exact ⟨[], rfl, by simp⟩

/-- What is written about sentences that have predicted words. -/
theorem writeAll_words {v : Vocab} {exp : S → S} {showNum : Flt S → Str} (hn : ∀ x, '\n' ∉ showNum x) (scale : S)
    (sents : List (Sentence S)) (hc : ∀ s ∈ sents, CleanSentence s)
    (hl : ∀ s ∈ sents, s.lps.length + 1 = s.words.length) (hp : ∀ s ∈ sents, s.predicted ≠ []) (st : ScoreStats S) :
    ∃ blocks, writeAll v exp showNum scale true sents st = (blocks.flatten.flatten, .ok (sents.foldl addSentence st)) ∧
      List.Forall₂ (fun (p : Sentence S × Nat) ls => SentenceLines v exp showNum scale (p.2 + 1) p.1 ls)
        (sents.zipIdx st.sentences) blocks ∧ ∀ l ∈ blocks.flatten, IsLine l := by
  induction sents generalizing st with
  | nil => exact ⟨[], rfl, .nil, by simp⟩
  | cons s rest ih =>
    obtain ⟨ls, e, hf, hi⟩ := sentenceText_spec (v := v) (exp := exp) hn scale s (hc s (by simp)) (hl s (by simp))
      (st.sentences + 1)
    obtain ⟨blocks, e2, hf2, hi2⟩ := ih (fun s hs => hc s (by simp [hs])) (fun s hs => hl s (by simp [hs]))
      (fun s hs => hp s (by simp [hs])) (addSentence st s)
    refine ⟨ls :: blocks, ?_, ?_, ?_⟩
    · rw [writeAll, writeOne, if_neg (fun h => hp s (by simp) h.2)]
      dsimp only
      rw [e2, if_pos rfl, e]
      simp
    · rw [List.zipIdx_cons]
      exact .cons hf hf2
    · intro l hl
      rw [List.flatten_cons, List.mem_append] at hl
      rcases hl with hl | hl
      · exact hi l hl
      · exact hi2 l hl

theorem writeAll_counts (v : Vocab) (exp : S → S) (showNum : Flt S → Str) (scale : S) (sents : List (Sentence S))
    (st : ScoreStats S) : writeAll v exp showNum scale false sents st = ([], .ok (sents.foldl addSentence st)) := by
  induction sents generalizing st with
  | nil => rfl
  | cons s rest ih =>
    rw [writeAll, writeOne, if_neg (by simp)]
    dsimp only
    rw [ih]
    rfl

theorem scoreScale_eq {log : Nat → S} {base : Option Nat} {scale : S} (h : BaseScale log base scale) :
    scoreScale log base = scale := by
  unfold scoreScale
  cases hb : base with
  | none => exact (h.1 hb).symm
  | some b => exact (h.2 b hb).symm

theorem six_lines (p1 p2 p3 p4 p5 p6 a b c d e f n : Str) :
    p1 ++ a ++ n ++ p2 ++ b ++ n ++ p3 ++ c ++ n ++ p4 ++ d ++ n ++ p5 ++ e ++ n ++ p6 ++ f ++ n =
      [p1 ++ a ++ n, p2 ++ b ++ n, p3 ++ c ++ n, p4 ++ d ++ n, p5 ++ e ++ n, p6 ++ f ++ n].flatten := by
  simp only [List.flatten_cons, List.flatten_nil, List.append_assoc, List.append_nil]

/-- The lines about the counters. -/
def statLines (st : ScoreStats S) : List Str :=
  ["Number of sentences: ".toList ++ decimal st.sentences ++ "\n".toList,
   "Number of words: ".toList ++ decimal st.words ++ "\n".toList,
   "Number of tokens: ".toList ++ decimal st.tokens ++ "\n".toList,
   "Number of predicted probabilities: ".toList ++ decimal st.probs ++ "\n".toList,
   "Number of excluded (OOV) words: ".toList ++ decimal st.unks ++ "\n".toList,
   "Number of zero probabilities: ".toList ++ decimal st.zeroprobs ++ "\n".toList]

/-- The lines about the cross entropy. -/
def entropyList (exp : S → S) (showNum : Flt S → Str) (log : Nat → S) (base : Option Nat) (x : Flt S) : List Str :=
  ["Cross entropy (base e): ".toList ++ showNum x ++ "\n".toList] ++
    (match base with
     | none => []
     | some b => ["Cross entropy (base ".toList ++ decimal b ++ "): ".toList ++ showNum (x.divBy (log b)) ++ "\n".toList]) ++
    ["Perplexity: ".toList ++ showNum (x.exp exp) ++ "\n".toList]

theorem entropy_none (c p1 p2 a b n : Str) :
    c ++ p1 ++ a ++ n ++ [] ++ p2 ++ b ++ n = c ++ ([p1 ++ a ++ n] ++ [] ++ [p2 ++ b ++ n]).flatten := by
  simp only [List.flatten_append, List.flatten_cons, List.flatten_nil, List.append_assoc, List.append_nil]

theorem entropy_some (c p1 m p2 a b n : Str) :
    c ++ p1 ++ a ++ n ++ m ++ p2 ++ b ++ n = c ++ ([p1 ++ a ++ n] ++ [m] ++ [p2 ++ b ++ n]).flatten := by
  simp only [List.flatten_append, List.flatten_cons, List.flatten_nil, List.append_assoc, List.append_nil]

theorem writeSummary_lines (exp : S → S) (showNum : Flt S → Str) (log : Nat → S) (base : Option Nat) (st : ScoreStats S) :
    writeSummary exp showNum log base st =
      if 0 < st.words then
        if st.probs = 0 then ((statLines st).flatten, some .zeroDivision)
        else ((statLines st).flatten ++ (entropyList exp showNum log base (st.total.neg.divNat st.probs)).flatten, none)
      else ((statLines st).flatten, none) := by
  unfold writeSummary
  have e : _ = (statLines st).flatten := six_lines "Number of sentences: ".toList "Number of words: ".toList
    "Number of tokens: ".toList "Number of predicted probabilities: ".toList "Number of excluded (OOV) words: ".toList
    "Number of zero probabilities: ".toList (decimal st.sentences) (decimal st.words) (decimal st.tokens) (decimal st.probs)
    (decimal st.unks) (decimal st.zeroprobs) "\n".toList
  rw [e]
  generalize (statLines st).flatten = c
  split
  · split
    · rfl
    · cases base with
      | none => exact congrArg (fun t => (t, none)) (entropy_none ..)
      | some b => exact congrArg (fun t => (t, none)) (entropy_some ..)
  · rfl

theorem statLines_isLine (st : ScoreStats S) : ∀ l ∈ statLines st, IsLine l := by
  intro l hl
  rcases List.mem_cons.mp hl with rfl | hl
  · exact isLine_split (by decide) (FieldWord.newline (decimal_field _))
  rcases List.mem_cons.mp hl with rfl | hl
  · exact isLine_split (by decide) (FieldWord.newline (decimal_field _))
  rcases List.mem_cons.mp hl with rfl | hl
  · exact isLine_split (by decide) (FieldWord.newline (decimal_field _))
  rcases List.mem_cons.mp hl with rfl | hl
  · exact isLine_split (by decide) (FieldWord.newline (decimal_field _))
  rcases List.mem_cons.mp hl with rfl | hl
  · exact isLine_split (by decide) (FieldWord.newline (decimal_field _))
  rcases List.mem_cons.mp hl with rfl | hl
  · exact isLine_split (by decide) (FieldWord.newline (decimal_field _))
  · cases hl

theorem entropyList_isLine (exp : S → S) {showNum : Flt S → Str} (hn : ∀ x, '\n' ∉ showNum x) (log : Nat → S)
    (base : Option Nat) (x : Flt S) : ∀ l ∈ entropyList exp showNum log base x, IsLine l := by
  have l1 : IsLine ("Cross entropy (base e): ".toList ++ showNum x ++ "\n".toList) := isLine_split (by decide) (hn _)
  have l2 : IsLine ("Perplexity: ".toList ++ showNum (x.exp exp) ++ "\n".toList) := isLine_split (by decide) (hn _)
  intro l hl
  unfold entropyList at hl
  rcases List.mem_append.mp hl with hl | hl
  · rcases List.mem_append.mp hl with hl | hl
    · rw [List.mem_singleton.mp hl]; exact l1
    · cases base with
      | none => cases hl
      | some b =>
        rw [List.mem_singleton.mp hl]
        refine isLine_mk ?_
        simp only [List.mem_append, not_or]
        exact ⟨⟨⟨by decide, FieldWord.newline (decimal_field b)⟩, by decide⟩, hn _⟩
  · rw [List.mem_singleton.mp hl]; exact l2

theorem entropyList_spec (exp : S → S) (showNum : Flt S → Str) (log : Nat → S) (base : Option Nat) (xs : List (Flt S)) :
    EntropyLines exp showNum log base xs (entropyList exp showNum log base (crossEntropyOf xs)) := by
  cases base with
  | none => exact ⟨[], rfl, fun _ => rfl, fun b hb => nomatch hb⟩
  | some b =>
    refine ⟨_, rfl, fun h => (nomatch h), fun b' hb => ?_⟩
    rw [← Option.some.inj hb]
    exact ⟨_, divBy_spec _ (log b), rfl⟩

theorem statLines_counts (sents : List (Sentence S)) :
    statLines (sents.foldl addSentence ScoreStats.zero) = countLines sents := by
  obtain ⟨h1, h2, h3, h4, h5, h6, -⟩ := foldl_addSentence sents (ScoreStats.zero (S := S))
  unfold statLines
  rw [h1, h2, h3, h4, h5, h6]
  have z : (ScoreStats.zero (S := S)) = ⟨.fin 0, 0, 0, 0, 0, 0, 0⟩ := rfl
  rw [z]
  dsimp only
  rw [Nat.zero_add, Nat.zero_add, Nat.zero_add, Nat.zero_add, Nat.zero_add, Nat.zero_add]
  rfl

/-- The end of the report. -/
theorem writeSummary_spec (exp : S → S) {showNum : Flt S → Str} (hn : ∀ x, '\n' ∉ showNum x) (log : Nat → S)
    (base : Option Nat) (sents : List (Sentence S)) (hl : ∀ s ∈ sents, s.lps.length + 1 = s.words.length)
    (hp : sents = [] ∨ ∃ s ∈ sents, s.predicted ≠ []) :
    ∃ entropy, writeSummary exp showNum log base (sents.foldl addSentence ScoreStats.zero) =
        ((countLines sents ++ entropy).flatten, none) ∧ (sents = [] → entropy = []) ∧
      (sents ≠ [] → EntropyLines exp showNum log base (sents.flatMap Sentence.predicted) entropy) ∧
      ∀ l ∈ countLines sents ++ entropy, IsLine l := by
  obtain ⟨-, -, h3, h4, -, -, h7⟩ := foldl_addSentence sents (ScoreStats.zero (S := S))
  have hcount := sentences_count sents hl
  have hcl := statLines_isLine (sents.foldl addSentence (ScoreStats.zero (S := S)))
  rw [writeSummary_lines, h3, h4, h7, statLines_counts]
  rw [statLines_counts] at hcl
  have z : (ScoreStats.zero (S := S)) = ⟨.fin 0, 0, 0, 0, 0, 0, 0⟩ := rfl
  rw [z]
  rw [Nat.zero_add, Nat.zero_add]
  by_cases hne : sents = []
  · refine ⟨[], ?_, fun _ => rfl, fun h => absurd hne h, ?_⟩
    · rw [if_neg (by rw [hne]; simp), List.append_nil]
    · rw [List.append_nil]; exact hcl
  · have hpos := List.length_pos_iff.mpr hne
    have hq : (sents.flatMap Sentence.predicted) ≠ [] := by
      intro e
      rcases hp with hp | ⟨s, hs, hp⟩
      · exact hne hp
      · exact hp (List.flatMap_eq_nil_iff.mp e s hs)
    have hq2 := List.length_pos_iff.mpr hq
    refine ⟨entropyList exp showNum log base (crossEntropyOf (sents.flatMap Sentence.predicted)), ?_, fun h => absurd h hne,
      fun _ => entropyList_spec .., ?_⟩
    · rw [if_pos (by omega), if_neg (by omega), Flt.zero_add', List.flatten_append]
      rfl
    · intro l hl
      rcases List.mem_append.mp hl with hl | hl
      · exact hcl l hl
      · exact entropyList_isLine exp hn log base _ l hl

/-! ## The words -/

theorem unk_noNewline : '\n' ∉ unk := by decide

theorem flushWord_mem {α : Type} {ws : List (List Str)} {ls : List (Option α)} {cw : List Str} {cl : Option α}
    {Q : Str → Prop} (h1 : ∀ w ∈ ws, ∀ f ∈ w, Q f) (h2 : ∀ f ∈ cw, Q f) : ∀ w ∈ (flushWord ws ls cw cl).1, ∀ f ∈ w, Q f := by
  unfold flushWord
  split
  · intro w hw
    rcases List.mem_append.mp hw with hw | hw
    · exact h1 w hw
    · rw [List.mem_singleton.mp hw]; exact h2
  · exact h1

theorem snoc_words {Q : Str → Prop} {ws : List (List Str)} {cw : List Str} (h1 : ∀ w ∈ ws, ∀ f ∈ w, Q f) (h2 : ∀ f ∈ cw, Q f) :
    ∀ w ∈ ws ++ [cw], ∀ f ∈ w, Q f := by
  intro w hw
  rcases List.mem_append.mp hw with hw | hw
  · exact h1 w hw
  · rw [List.mem_singleton.mp hw]; exact h2

theorem snoc_fields {Q : Str → Prop} {cw : List Str} {s : Str} (h1 : ∀ f ∈ cw, Q f) (h2 : Q s) : ∀ f ∈ cw ++ [s], Q f := by
  intro f hf
  rcases List.mem_append.mp hf with hf | hf
  · exact h1 f hf
  · rw [List.mem_singleton.mp hf]; exact h2

theorem mergeBoundary_mem {α : Type} [Add α] [Zero α] {Q : Str → Prop} (hunk : Q unk) (rest : List (Str × Option α))
    (ws : List (List Str)) (ls : List (Option α)) (cw : List Str) (cl : Option α) (h0 : ∀ p ∈ rest, Q p.1)
    (h1 : ∀ w ∈ ws, ∀ f ∈ w, Q f) (h2 : ∀ f ∈ cw, Q f) : ∀ w ∈ (mergeBoundary rest ws ls cw cl).1, ∀ f ∈ w, Q f := by
  induction rest generalizing ws ls cw cl with
  | nil => exact flushWord_mem h1 h2
  | cons p rest ih =>
    obtain ⟨s, lp⟩ := p
    have h0' : ∀ p ∈ rest, Q p.1 := fun p hp => h0 p (List.mem_cons_of_mem _ hp)
    have hs : Q s := h0 (s, lp) (by simp)
    rw [mergeBoundary]
    split
    · split
      · exact ih _ _ _ _ h0' (snoc_words h1 h2) (by simp)
      · exact ih _ _ _ _ h0' h1 h2
    · split
      · exact ih _ _ _ _ h0' h1 (fun f hf => by rw [List.mem_singleton.mp hf]; exact hunk)
      · exact ih _ _ _ _ h0' h1 (snoc_fields h2 hs)

theorem mergeAffix_mem {α : Type} [Add α] {Q : Str → Prop} (rest : List (Str × Option α))
    (ws : List (List Str)) (ls : List (Option α)) (cw : List Str) (cl : Option α) (h0 : ∀ p ∈ rest, Q p.1)
    (h1 : ∀ w ∈ ws, ∀ f ∈ w, Q f) (h2 : ∀ f ∈ cw, Q f) : ∀ w ∈ (mergeAffix rest ws ls cw cl).1, ∀ f ∈ w, Q f := by
  induction rest generalizing ws ls cw cl with
  | nil => exact flushWord_mem h1 h2
  | cons p rest ih =>
    obtain ⟨s, lp⟩ := p
    have h0' : ∀ p ∈ rest, Q p.1 := fun p hp => h0 p (List.mem_cons_of_mem _ hp)
    have hs : Q s := h0 (s, lp) (by simp)
    have hs' : ∀ f ∈ [s], Q f := fun f hf => by rw [List.mem_singleton.mp hf]; exact hs
    rw [mergeAffix]
    split
    · exact ih _ _ _ _ h0' h1 (snoc_fields h2 hs)
    · split
      · exact ih _ _ _ _ h0' (snoc_words h1 h2) hs'
      · exact ih _ _ _ _ h0' h1 hs'

/-- Merging takes its words from the given ones, except for `<unk>`. -/
theorem mergeSubwords_mem {α : Type} [Add α] [Zero α] {Q : Str → Prop} (hunk : Q unk) {u : List Str} (hu : ∀ w ∈ u, Q w)
    {ys : List (Option α)} {marking : Marking} {ws : List MergedWord} {ls : List (Option α)}
    (h : mergeSubwords u ys marking = .ok (ws, ls)) : ∀ w ∈ ws, ∀ f ∈ w.fields, Q f := by
  cases u with
  | nil => cases h
  | cons first rest =>
    unfold mergeSubwords at h
    dsimp only at h
    split at h
    · cases h
    · have h0 : ∀ p ∈ rest.zip ys, Q p.1 := fun p hp => hu _ (List.mem_cons_of_mem _ (List.of_mem_zip hp).1)
      have h1 : ∀ w ∈ [[first]], ∀ f ∈ w, Q f := by
        intro w hw f hf
        rw [List.mem_singleton.mp hw] at hf
        rw [List.mem_singleton.mp hf]
        exact hu _ (by simp)
      cases marking with
      | noMarking =>
        cases h
        intro w hw f hf
        obtain ⟨v, hv, rfl⟩ := List.mem_map.mp hw
        rw [List.mem_singleton.mp hf]
        exact hu v hv
      | wordBoundary =>
        cases h
        intro w hw f hf
        obtain ⟨v, hv, rfl⟩ := List.mem_map.mp hw
        exact mergeBoundary_mem hunk _ _ _ _ _ h0 h1 (by simp) v hv f hf
      | prefixAffix =>
        cases h
        intro w hw f hf
        obtain ⟨v, hv, rfl⟩ := List.mem_map.mp hw
        exact mergeAffix_mem _ _ _ _ _ h0 h1 (by simp) v hv f hf
      | other => cases h

theorem utterance_noNewline {line : Str} {u : List Str} (h : utteranceFromLine line = .ok u) : ∀ w ∈ u, '\n' ∉ w := by
  obtain ⟨ws, hws⟩ := Words_total line
  by_cases hne : ws = []
  · subst hne
    rw [C01_blank line hws] at h
    cases h
    simp
  · obtain ⟨pre, post, e, h1, h2⟩ := C01_words line ws hws hne
    rw [e] at h
    cases h
    intro w hw
    have hp : ∀ w ∈ pre, '\n' ∉ w := by
      rw [h1]
      split
      · simp
      · intro w hw; rw [List.mem_singleton.mp hw]; decide
    have hq : ∀ w ∈ post, '\n' ∉ w := by
      rw [h2]
      split
      · simp
      · intro w hw; rw [List.mem_singleton.mp hw]; decide
    rcases List.mem_append.mp hw with hw | hw
    · rcases List.mem_append.mp hw with hw | hw
      · exact hp w hw
      · exact FieldWord.newline (Words_mem hws w hw)
    · exact hq w hw

theorem SentenceOfLine.clean {sc : Scorer S} {marking : Marking} {line : Str} {s : Sentence S}
    (h : SentenceOfLine sc marking line s) : CleanSentence s := by
  obtain ⟨u, ids, ys, hu, -, -, hm, -⟩ := h
  exact mergeSubwords_mem unk_noNewline (utterance_noNewline hu) hm

theorem SentenceOfLine.length {sc : Scorer S} {marking : Marking} {line : Str} {s : Sentence S}
    (h : SentenceOfLine sc marking line s) : s.lps.length + 1 = s.words.length := by
  obtain ⟨u, ids, ys, hu, -, -, hm, -⟩ := h
  exact C37_count u ys marking _ _ hm

theorem forall₂_right_all {α β : Type} {R : α → β → Prop} {Q : β → Prop} (hRQ : ∀ a b, R a b → Q b) {as : List α} {bs : List β}
    (h : List.Forall₂ R as bs) : ∀ b ∈ bs, Q b := by
  induction h with
  | nil => simp
  | cons h _ ih =>
    intro b hb
    rcases List.mem_cons.mp hb with rfl | hb
    · exact hRQ _ _ h
    · exact ih b hb

/-! ## C88 -/

/-- The name of the output format. -/
def reportName (wordLevel : Bool) : Str := if wordLevel then "word-scores".toList else "perplexity".toList

theorem scoreCommand_report (sc : Scorer S) (showNum : Flt S → Str) (log : Nat → S) (base : Option Nat) (marking : Marking)
    (wl : Bool) (fuel : Nat) (text : Str) :
    scoreCommand sc showNum log base marking (reportName wl) fuel text =
      scoreTextFile sc showNum log base marking wl fuel text := by
  cases wl
  · exact if_pos rfl
  · exact (if_neg (by decide)).trans (if_pos rfl)

/-- C88: The score command writes a report about the sentences of the text, which are scored one by one from the lines that have
words, in order, if there are words to compute the perplexities from: with "word-scores", a line about every word of every
sentence and the perplexity of the sentence; and in the end the counts, cross entropy, and perplexity of all the predicted words.

Missing from the full claim: the network is assumed to score a sentence independently of the other sentences in the mini-batch,
and without words to compute a perplexity from the report stops (`C88_stops`, `C88_violated`). -/
theorem C88_report_partial (P : Parsers) (sc : Scorer S) (h : sc.Proper P) (hi : sc.BatchIndependent) (showNum : Flt S → Str)
    (hn : ∀ x, '\n' ∉ showNum x) (log : Nat → S) (base : Option Nat) (scale : S) (hb : BaseScale log base scale)
    (marking : Marking) (hm : marking ≠ .other) (wl : Bool) (text : Str) (ls : List Str) (hl : Lines text ls) :
    ∃ sents, List.Forall₂ (SentenceOfLine sc marking) (linesWithWords ls) sents ∧
      ((wl = true → ∀ s ∈ sents, s.predicted ≠ []) → (sents = [] ∨ ∃ s ∈ sents, s.predicted ≠ []) →
        ∃ N out, (∀ fuel, N ≤ fuel →
            scoreCommand sc showNum log base marking (reportName wl) fuel text = some (out, none)) ∧
          ReportLines sc showNum log base scale wl sents (fileLines out)) := by
  obtain ⟨sents, hs, N, hN⟩ := scoreTextFile_eq sc h hi showNum log base marking hm wl text ls hl
  refine ⟨sents, hs, fun h1 h2 => ?_⟩
  have hc := forall₂_right_all (Q := CleanSentence) (fun _ _ h => h.clean) hs
  have hlen := forall₂_right_all (Q := fun s => s.lps.length + 1 = s.words.length) (fun _ _ h => h.length) hs
  obtain ⟨entropy, e, he1, he2, he3⟩ := writeSummary_spec sc.exp hn log base sents hlen h2
  rw [scoreScale_eq hb] at hN
  cases wl with
  | false =>
    refine ⟨N, (countLines sents ++ entropy).flatten, fun fuel hf => ?_, ?_⟩
    · rw [scoreCommand_report, hN fuel hf, writeAll_counts]
      dsimp only
      rw [e]
      rfl
    · rw [fileLines_flatten he3]
      exact ⟨[], entropy, rfl, fun _ => rfl, fun h => absurd h (by simp), he1, he2⟩
  | true =>
    obtain ⟨blocks, e2, hf, hbl⟩ := writeAll_words (v := sc.vocab) (exp := sc.exp) hn scale sents hc hlen (h1 rfl)
      ScoreStats.zero
    refine ⟨N, (blocks.flatten ++ (countLines sents ++ entropy)).flatten, fun fuel hf => ?_, ?_⟩
    · rw [scoreCommand_report, hN fuel hf, e2]
      dsimp only
      rw [e, List.flatten_append (L₁ := blocks.flatten)]
    · rw [fileLines_flatten]
      · exact ⟨blocks, entropy, (List.append_assoc ..).symm, fun h => absurd h (by simp), fun _ => hf, he1, he2⟩
      · intro l hl
        rcases List.mem_append.mp hl with hl | hl
        · exact hbl l hl
        · exact he3 l hl

theorem writeAll_stops {v : Vocab} {exp : S → S} {showNum : Flt S → Str} (scale : S) (s : Sentence S) (after : List (Sentence S))
    (hp : s.predicted = []) (before : List (Sentence S)) (st : ScoreStats S) (out : Str)
    (h : writeAll v exp showNum scale true before st = (out, .ok (before.foldl addSentence st))) :
    writeAll v exp showNum scale true (before ++ s :: after) st =
      (out ++ wordText v showNum scale ((before.foldl addSentence st).sentences + 1) s, .error .zeroDivision) := by
  rw [writeAll_append, h]
  dsimp only
  rw [writeAll, writeOne, if_pos ⟨rfl, hp⟩]

/-- C88: What is in the output file if the report stops.  With "word-scores", if a sentence has no predicted words, the last
lines are about the words of that sentence; with "perplexity", if there are sentences but no predicted words, the last lines are
the counts. -/
theorem C88_stops (P : Parsers) (sc : Scorer S) (h : sc.Proper P) (hi : sc.BatchIndependent) (showNum : Flt S → Str)
    (hn : ∀ x, '\n' ∉ showNum x) (log : Nat → S) (base : Option Nat) (scale : S) (hb : BaseScale log base scale)
    (marking : Marking) (hm : marking ≠ .other) (wl : Bool) (text : Str) (ls : List Str) (hl : Lines text ls) :
    ∃ sents, List.Forall₂ (SentenceOfLine sc marking) (linesWithWords ls) sents ∧
      (∀ before s after, wl = true → sents = before ++ s :: after → (∀ b ∈ before, b.predicted ≠ []) → s.predicted = [] →
        ∃ N out blocks words, (∀ fuel, N ≤ fuel →
            scoreCommand sc showNum log base marking (reportName wl) fuel text = some (out, some .zeroDivision)) ∧
          List.Forall₂ (fun (p : Sentence S × Nat) ls => SentenceLines sc.vocab sc.exp showNum scale (p.2 + 1) p.1 ls)
            before.zipIdx blocks ∧ WordLines sc.vocab showNum scale (before.length + 1) s words ∧
          fileLines out = blocks.flatten ++ words) ∧
      (wl = false → sents ≠ [] → (∀ s ∈ sents, s.predicted = []) →
        ∃ N out, (∀ fuel, N ≤ fuel →
            scoreCommand sc showNum log base marking (reportName wl) fuel text = some (out, some .zeroDivision)) ∧
          fileLines out = countLines sents) := by
  obtain ⟨sents, hs, N, hN⟩ := scoreTextFile_eq sc h hi showNum log base marking hm wl text ls hl
  have hc := forall₂_right_all (Q := CleanSentence) (fun _ _ h => h.clean) hs
  have hlen := forall₂_right_all (Q := fun s => s.lps.length + 1 = s.words.length) (fun _ _ h => h.length) hs
  rw [scoreScale_eq hb] at hN
  refine ⟨sents, hs, ?_, ?_⟩
  · rintro before s after rfl rfl hbef hp
    have hcb : ∀ b ∈ before, CleanSentence b := fun b hb => hc b (by simp [hb])
    have hlb : ∀ b ∈ before, b.lps.length + 1 = b.words.length := fun b hb => hlen b (by simp [hb])
    obtain ⟨blocks, e, hf, hbl⟩ := writeAll_words (v := sc.vocab) (exp := sc.exp) hn scale before hcb hlb hbef ScoreStats.zero
    have hst := writeAll_stops scale s after hp before _ _ e
    have hcount : (before.foldl addSentence (ScoreStats.zero (S := S))).sentences = before.length := by
      rw [(foldl_addSentence before (ScoreStats.zero (S := S))).1]
      exact Nat.zero_add _
    rw [hcount] at hst
    obtain ⟨words, e2, hw, hwl⟩ := wordText_spec (v := sc.vocab) hn scale s (hc s (by simp)) (hlen s (by simp))
      (before.length + 1)
    refine ⟨N, (blocks.flatten ++ words).flatten, blocks, words, fun fuel hfu => ?_, hf, hw, ?_⟩
    · rw [scoreCommand_report, hN fuel hfu, hst]
      dsimp only
      rw [e2, List.flatten_append]
    · refine fileLines_flatten (fun l hl => ?_)
      rcases List.mem_append.mp hl with hl | hl
      · exact hbl l hl
      · exact hwl l hl
  · rintro rfl hne hall
    refine ⟨N, (countLines sents).flatten, fun fuel hfu => ?_, ?_⟩
    · rw [scoreCommand_report, hN fuel hfu, writeAll_counts]
      dsimp only
      obtain ⟨-, -, h3, h4, -, -, -⟩ := foldl_addSentence sents (ScoreStats.zero (S := S))
      have hcount := sentences_count sents hlen
      have hpos := List.length_pos_iff.mpr hne
      have hz : sents.flatMap Sentence.predicted = [] := List.flatMap_eq_nil_iff.mpr hall
      rw [writeSummary_lines, statLines_counts, if_pos, if_pos]
      · rfl
      · rw [h4, hz]; rfl
      · rw [h3, hcount]; omega
    · refine fileLines_flatten (fun l hl => ?_)
      rw [← statLines_counts] at hl
      exact statLines_isLine _ l hl

/-! ## C89 -/

theorem fileLines_linesOf (text : Str) : fileLines text = linesOf isNl text := by
  induction text with
  | nil => rfl
  | cons c cs ih =>
    rw [fileLines, linesOf, ih]
    by_cases h : c = '\n'
    · subst h; rfl
    · rw [if_neg h, if_neg (by simpa [isNl] using h)]
      cases linesOf isNl cs <;> rfl

theorem constructible_nodup {P : Parsers} {v : Vocab} (h : Constructible P v) : v.idToWord.Nodup := by
  obtain ⟨n, ps, hv⟩ := h.inv
  exact hv.nodup

theorem idOf_unique {v : Vocab} (hn : v.idToWord.Nodup) {unkId : Nat} {w : Str} {i j : Nat} (hi : IdOf v false unkId w i)
    (hj : IdOf v false unkId w j) : i = j := by
  cases hi with
  | known _ h _ =>
    cases hj with
    | known _ h' _ => exact getElem?_inj_of_nodup hn h h'
    | outOfShortlist _ _ hm _ => cases hm
    | unknown h' => exact absurd (List.mem_of_getElem? h) h'
  | outOfShortlist _ _ hm _ => cases hm
  | unknown h =>
    cases hj with
    | known _ h' _ => exact absurd (List.mem_of_getElem? h') h
    | outOfShortlist _ _ hm _ => cases hm
    | unknown _ => rfl

theorem forall₂_unique {α β : Type} {R : α → β → Prop} (hR : ∀ a b c, R a b → R a c → b = c) {as : List α} {bs cs : List β}
    (h : List.Forall₂ R as bs) (h' : List.Forall₂ R as cs) : bs = cs := by
  induction h generalizing cs with
  | nil => cases h'; rfl
  | cons h _ ih =>
    cases h' with
    | cons g gs => rw [hR _ _ _ h g, ih gs]

theorem sequenceScores_unique {sc : Scorer S} {b : MiniBatch} {i : Nat} {ys zs : List (Option (Flt S))}
    (h : sc.SequenceScores b i ys) (h' : sc.SequenceScores b i zs) : ys = zs := by
  refine forall₂_unique ?_ h h'
  rintro t y z ⟨h1, h2⟩ ⟨g1, g2⟩
  by_cases he : sc.Excluded (b.word (t + 1) i)
  · rw [h1 he, g1 he]
  · obtain ⟨x, rfl, hx⟩ := h2 he
    obtain ⟨y, rfl, hy⟩ := g2 he
    rw [C38_word_score_unique sc b t i x y hx hy]

/-- C89: A line has only one score. -/
theorem C89_unique (P : Parsers) (sc : Scorer S) (h : sc.Proper P) (line : Str) (x y : Flt S) (hx : UtteranceScore sc line x)
    (hy : UtteranceScore sc line y) : x = y := by
  obtain ⟨u, ids, ys, hu, hids, hys, rfl⟩ := hx
  obtain ⟨u', ids', ys', hu', hids', hys', rfl⟩ := hy
  rw [hu] at hu'; cases hu'
  have e := forall₂_unique (R := IdOf sc.vocab false sc.unkId)
    (fun _ _ _ h1 h2 => idOf_unique (constructible_nodup h.vocab) h1 h2) hids hids'
  subst e
  rw [sequenceScores_unique hys hys']

/-- The score of a line with words. -/
theorem scoreLine_words {P : Parsers} {sc : Scorer S} (h : sc.Proper P) {line : Str}
    (hw : line.any (fun c => !isSpace c) = true)
    (hshort : ∀ u ids, utteranceFromLine line = .ok u → List.Forall₂ (IdOf sc.vocab false sc.unkId) u ids →
      ∀ i ∈ ids, i < sc.vocab.numShortlist)
    (hfin : ∀ x, UtteranceScore sc line x → ∃ a, x = .fin a ∧ a ≤ 0) :
    ∃ x, UtteranceScore sc line x ∧ sc.scoreLine line = .ok (some x) := by
  obtain ⟨unkId, ids, hu, hids, hof⟩ := C08_words_to_ids P sc.vocab h.vocab (utterance line)
  rw [h.unk] at hu
  cases hu
  have hlen := hof.length_eq
  have h2 := utterance_words hw
  have hne : ids ≠ [] := by
    rintro rfl
    rw [hlen] at h2
    simp at h2
  have hs := hshort _ _ (utterance_ok line) hof
  obtain ⟨batch, ys, e1, e2, -, e3⟩ := C39_line_partial P sc h line ids hids hne hs
  obtain ⟨batch', r, g1, g2, g3, g4⟩ := C38_score_batch P sc h (sentenceBatch ids) (sentence_valid h hne hs)
  rw [e1] at g1
  cases g1
  rw [e2] at g2
  cases g2
  have hx : UtteranceScore sc line (Flt.sum ((ys.zip ids.tail).filterMap
      (fun p => if (memberOf sc.vocab p.2).2 = 0 then none else p.1))) :=
    ⟨_, ids, ys, utterance_ok line, hof, g4 0 ys rfl, rfl⟩
  refine ⟨_, hx, ?_⟩
  obtain ⟨a, ha, hle⟩ := hfin _ hx
  rw [e3, ha, checkLogprob_ok.mpr ⟨rfl, a, rfl, hle⟩]

/-- C89: With "utterance-scores", the score command writes the scores of the lines that have words, one score on every line, in
order, if the words of the text are in the shortlist or unknown and the scores are finite.

Missing from the full claim: words outside the shortlist; see `C89_violated`. -/
theorem C89_scores_partial (P : Parsers) (sc : Scorer S) (h : sc.Proper P) (showNum : Flt S → Str)
    (hn : ∀ x, '\n' ∉ showNum x) (log : Nat → S) (base : Option Nat) (scale : S) (hb : BaseScale log base scale)
    (marking : Marking) (fuel : Nat) (text : Str) (ls : List Str) (hl : Lines text ls)
    (hshort : ∀ line ∈ linesWithWords ls, ∀ u ids, utteranceFromLine line = .ok u →
      List.Forall₂ (IdOf sc.vocab false sc.unkId) u ids → ∀ i ∈ ids, i < sc.vocab.numShortlist)
    (hfin : ∀ line ∈ linesWithWords ls, ∀ x, UtteranceScore sc line x → ∃ a, x = .fin a ∧ a ≤ 0) :
    ∃ out, scoreCommand sc showNum log base marking "utterance-scores".toList fuel text = some (out, none) ∧
      List.Forall₂ (fun line shown => ∃ x y, UtteranceScore sc line x ∧ InBase scale x y ∧ shown = showNum y ++ "\n".toList)
        (linesWithWords ls) (fileLines out) := by
  have e : scoreCommand sc showNum log base marking "utterance-scores".toList fuel text =
      some (scoreUtterancesLoop sc showNum scale ls) := by
    rw [← scoreScale_eq hb]
    unfold scoreCommand scoreUtterances
    rw [fileLines_linesOf, ← lines_eq hl, if_neg (by decide), if_neg (by decide), if_pos rfl]
  rw [e]
  suffices H : ∃ outs, scoreUtterancesLoop sc showNum scale ls = (outs.flatten, none) ∧
      List.Forall₂ (fun line shown => ∃ x y, UtteranceScore sc line x ∧ InBase scale x y ∧ shown = showNum y ++ "\n".toList)
        (linesWithWords ls) outs ∧ ∀ l ∈ outs, IsLine l by
    obtain ⟨outs, h1, h2, h3⟩ := H
    exact ⟨outs.flatten, by rw [h1], by rw [fileLines_flatten h3]; exact h2⟩
  clear hl e
  induction ls with
  | nil => exact ⟨[], rfl, .nil, by simp⟩
  | cons line rest ih =>
    by_cases hw : line.any (fun c => !isSpace c) = true
    · have ef : linesWithWords (line :: rest) = line :: linesWithWords rest := List.filter_cons_of_pos hw
      rw [ef] at hshort hfin ⊢
      obtain ⟨outs, h1, h2, h3⟩ := ih (fun l hl => hshort l (List.mem_cons_of_mem _ hl))
        (fun l hl => hfin l (List.mem_cons_of_mem _ hl))
      obtain ⟨x, hx, hs⟩ := scoreLine_words h hw (hshort line (by simp)) (hfin line (by simp))
      refine ⟨(showNum (x.divBy scale) ++ "\n".toList) :: outs, ?_, .cons ⟨x, _, hx, divBy_spec x scale, rfl⟩ h2, ?_⟩
      · rw [scoreUtterancesLoop, hs]
        dsimp only
        rw [h1]
        rfl
      · intro l hl
        rcases List.mem_cons.mp hl with rfl | hl
        · exact isLine_mk (hn _)
        · exact h3 l hl
    · have ef : linesWithWords (line :: rest) = linesWithWords rest := List.filter_cons_of_neg hw
      rw [ef] at hshort hfin ⊢
      obtain ⟨outs, h1, h2, h3⟩ := ih hshort hfin
      refine ⟨outs, ?_, h2, h3⟩
      have hu : utteranceFromLine line = .ok [] := by
        rw [utterance_ok, utterance_blank (by simpa using hw)]
      rw [scoreUtterancesLoop, C39_blank sc line hu]
      exact h1

theorem sum_predicted {ps : List (Option (Flt S) × Nat)} {v : Vocab} (hm : ∀ p ∈ ps, (memberOf v p.2).2 ≠ 0)
    (hz : ∀ p ∈ ps, p.1 ≠ some .negInf) (f : Option (Flt S) → Option (Flt S)) (hf : ∀ lp, lp ≠ some .negInf → f lp = lp) :
    ps.filterMap (fun p => if (memberOf v p.2).2 = 0 then none else p.1) = (ps.map Prod.fst).filterMap f := by
  rw [List.filterMap_map]
  apply List.filterMap_congr
  intro p hp
  rw [if_neg (hm p hp)]
  exact (hf _ (hz p hp)).symm

/-- C89: The score of a line is the sum of the log probabilities that are written about its words with "word-scores", if no word
has probability zero. -/
theorem C89_agrees (P : Parsers) (sc : Scorer S) (h : sc.Proper P) (line : Str) (x : Flt S) (s : Sentence S)
    (hx : UtteranceScore sc line x) (hs : SentenceOfLine sc .noMarking line s)
    (hm : ∀ u, utteranceFromLine line = .ok u → ∀ w ∈ u, ∀ i, IdOf sc.vocab false sc.unkId w i → (memberOf sc.vocab i).2 ≠ 0)
    (hz : some .negInf ∉ s.lps) : x = Flt.sum s.predicted := by
  obtain ⟨u, ids, ys, hu, hids, hys, rfl⟩ := hx
  obtain ⟨u', ids', ys', hu', hids', hys', hmerge, -⟩ := hs
  rw [hu] at hu'; cases hu'
  have e := forall₂_unique (R := IdOf sc.vocab false sc.unkId)
    (fun _ _ _ h1 h2 => idOf_unique (constructible_nodup h.vocab) h1 h2) hids hids'
  subst e
  have e := sequenceScores_unique hys hys'
  subst e
  have hok := (C37_succeeds u ys .noMarking).mp ⟨_, hmerge⟩
  cases u with
  | nil => simp at hok
  | cons first rest =>
    have hl : ys.length = rest.length := by simpa using hok.1
    rw [C37_plain first rest ys hl] at hmerge
    have e : ys = s.lps := congrArg Prod.snd (Except.ok.inj hmerge)
    have hlen := hids.length_eq
    have hmap : (ys.zip ids.tail).map Prod.fst = ys := by
      rw [List.map_fst_zip]
      rw [List.length_tail, ← hlen, hl, List.length_cons]
      omega
    rw [sum_predicted (v := sc.vocab) ?_ ?_ (fun lp => match lp with | none => none | some .negInf => none | some x => some x)
      ?_, hmap, e]
    · rfl
    · intro p hp
      have h1 := List.mem_of_mem_tail (List.of_mem_zip hp).2
      obtain ⟨k, hk, ek⟩ := List.mem_iff_getElem.mp h1
      have hk' : k < (first :: rest).length := by omega
      have := (List.forall₂_iff_get.mp hids).2 k hk' hk
      simp only [List.get_eq_getElem, ek] at this
      exact hm _ hu _ (List.getElem_mem hk') _ this
    · intro p hp hc
      apply hz
      rw [← e, ← hc]
      exact (List.of_mem_zip hp).1
    · intro lp hlp
      cases lp with
      | none => rfl
      | some x =>
        cases x with
        | negInf => exact absurd rfl hlp
        | _ => rfl

end

/-! ## Examples -/

/-- A way to write rational numbers. -/
def exShowNum : Flt ℚ → Str
  | .nan => "nan".toList
  | .negInf => "-inf".toList
  | .posInf => "inf".toList
  | .fin q => (if q < 0 then "-".toList else []) ++ decimal q.num.natAbs ++ "/".toList ++ decimal q.den

theorem exShowNum_noNewline (x : Flt ℚ) : '\n' ∉ exShowNum x := by
  cases x with
  | fin q =>
    have h1 := FieldWord.newline (decimal_field q.num.natAbs)
    have h2 := FieldWord.newline (decimal_field q.den)
    have h3 : '\n' ∉ (if q < 0 then "-".toList else []) := by split <;> decide
    simp only [exShowNum, List.mem_append, not_or]
    exact ⟨⟨⟨h3, h1⟩, by decide⟩, h2⟩
  | _ => decide

theorem exScorer_independent (u e : Bool) : (exScorer u e).BatchIndependent := fun _ _ _ _ _ _ _ _ _ _ _ _ _ _ => rfl

/-- The hypotheses of `C88_report_partial` are met: a report with excluded and zero probability words. -/
example : scoreCommand (exScorer true false) exShowNum (fun b => b) (some 2) .noMarking (reportName true) 20
    "a x b\n\n zzz a\n".toList = some (("# Sentence 1\nlog(p(a | <s>)) = -1/2  [a:shortlist]\n" ++
      "log(p(x | <s> a)) = -11/8  [x:OOS]\nlog(p(b | <s> a x)) = -inf  [b:shortlist]\n" ++
      "log(p(</s> | ... a x b)) = -2/1  [</s>:shortlist]\nSentence perplexity: 43/12\n\n" ++
      "# Sentence 2\np(zzz | <s>) is not predicted  [zzz:OOV]\nlog(p(a | <s> zzz)) = -1/1  [a:shortlist]\n" ++
      "log(p(</s> | <s> zzz a)) = -3/2  [</s>:shortlist]\nSentence perplexity: 7/2\n\n" ++
      "Number of sentences: 2\nNumber of words: 9\nNumber of tokens: 9\nNumber of predicted probabilities: 5\n" ++
      "Number of excluded (OOV) words: 1\nNumber of zero probabilities: 1\nCross entropy (base e): 51/20\n" ++
      "Cross entropy (base 2): 51/40\nPerplexity: 71/20\n").toList, none) := by decide +kernel

/-- The case of `C88_stops`, and C88 is violated: the report of a text with word boundary tokens stops after the first sentence
without known words, and the sentences after it are not reported. -/
theorem C88_violated : ∃ (sc : Scorer ℚ), sc.Proper exParsers ∧ sc.BatchIndependent ∧
    scoreCommand sc exShowNum (fun b => b) none .wordBoundary (reportName true) 20 "zzz\n<w> a <w>\n".toList =
      some ("# Sentence 1\np(zzz </s> | <s>) is not predicted  [zzz:OOV </s>:shortlist]\n".toList, some .zeroDivision) ∧
    scoreCommand sc exShowNum (fun b => b) none .wordBoundary (reportName true) 20 "<w> a <w>\n".toList =
      some (("# Sentence 1\np(a | <s>) is not predicted  [a:shortlist]\nlog(p(</s> | <s> a)) = -4/1  [</s>:shortlist]\n" ++
        "Sentence perplexity: 5/1\n\nNumber of sentences: 1\nNumber of words: 3\nNumber of tokens: 5\n" ++
        "Number of predicted probabilities: 1\nNumber of excluded (OOV) words: 1\nNumber of zero probabilities: 0\n" ++
        "Cross entropy (base e): 4/1\nPerplexity: 5/1\n").toList, none) :=
  ⟨exScorer true false, exScorer_proper _ _, exScorer_independent _ _, by decide +kernel, by decide +kernel⟩

/-- The hypotheses of `C89_scores_partial` are met. -/
example : scoreCommand (exScorer true false) exShowNum (fun b => b) (some 2) .noMarking "utterance-scores".toList 0
    "a\n\n zzz a\n".toList = some ("-3/2\n-5/2\n".toList, none) ∧
    Lines "a\n\n zzz a\n".toList ["a\n".toList, "\n".toList, " zzz a\n".toList] ∧
    linesWithWords ["a\n".toList, "\n".toList, " zzz a\n".toList] = ["a\n".toList, " zzz a\n".toList] := by
  refine ⟨by decide +kernel, ?_, by decide⟩
  exact lines_linesOf _

/-- C89 is violated: the scores after a line with an out-of-shortlist word are not written. -/
theorem C89_violated : ∃ (sc : Scorer ℚ), sc.Proper exParsers ∧
    scoreCommand sc exShowNum (fun b => b) none .noMarking "utterance-scores".toList 0 "a\n a x\nb\n".toList =
      some ("-3/1\n".toList, some .indexError) ∧
    scoreCommand sc exShowNum (fun b => b) none .noMarking "utterance-scores".toList 0 "a\n".toList =
      some ("-3/1\n".toList, none) :=
  ⟨exScorer true false, exScorer_proper _ _, by decide +kernel, by decide +kernel⟩

/-- The hypotheses of `C89_agrees` are met: the two scores of the line "a". -/
example : ∃ s, SentenceOfLine (exScorer true false) .noMarking "a\n".toList s ∧
    UtteranceScore (exScorer true false) "a\n".toList (.fin (-3)) ∧ s.lps = [some (.fin (-1)), some (.fin (-2))] ∧
    Flt.sum s.predicted = .fin (-3) := by
  have hids : List.Forall₂ (IdOf exScoreVocab false 5) ["<s>".toList, "a".toList, "</s>".toList] [3, 1, 4] :=
    .cons (.known _ _ (by decide) (by simp)) (.cons (.known _ _ (by decide) (by simp))
      (.cons (.known _ _ (by decide) (by simp)) .nil))
  obtain ⟨batch, r, g1, g2, g3, g4⟩ := C38_score_batch exParsers (exScorer true false) (exScorer_proper _ _)
    (sentenceBatch [3, 1, 4]) (sentence_valid (exScorer_proper _ _) (by simp) (by decide +kernel))
  have e1 : (exScorer true false).cells (sentenceBatch [3, 1, 4]).matrices.1 (sentenceBatch [3, 1, 4]).matrices.2 =
      .ok (table 3 1 ((sentenceBatch [3, 1, 4]).cellAt exScoreVocab)) := by decide +kernel
  rw [e1] at g1
  cases g1
  have e2 : (exScorer true false).scoreBatch (table 3 1 ((sentenceBatch [3, 1, 4]).cellAt exScoreVocab)) =
      .ok [[some (.fin (-1)), some (.fin (-2))]] := by decide +kernel
  rw [e2] at g2
  cases g2
  refine ⟨⟨3, ["<s>".toList, "a".toList, "</s>".toList].map .plain, [some (.fin (-1)), some (.fin (-2))]⟩,
    ⟨_, _, _, by decide +kernel, hids, g4 0 _ rfl, rfl, rfl⟩, ⟨_, _, _, by decide +kernel, hids, g4 0 _ rfl, ?_⟩, rfl, ?_⟩
  · decide +kernel
  · decide +kernel

end TheanoLM
