import Verif.Lemmas.Parsing
/-!
# Properties of text parsing: C01, C02
-/
namespace TheanoLM

/-! ## Specification -/

/-- `Words line ws`: `ws` are the words of `line`, that is, `line` consists of the words `ws` (non-empty runs of
non-space characters) in this order, with whitespace around and between them. -/
inductive Words : Str → List Str → Prop
  | nil (l : Str) (h : ∀ c ∈ l, isSpace c = true) : Words l []
  | cons (pre w rest : Str) (ws : List Str)
      (hpre : ∀ c ∈ pre, isSpace c = true)
      (hw : w ≠ []) (hw' : ∀ c ∈ w, isSpace c = false)
      (hrest : ∀ c, rest.head? = some c → isSpace c = true)
      (h : Words rest ws) : Words (pre ++ (w ++ rest)) (w :: ws)

/-- Every line has words in the sense of the specification. -/
theorem Words_total (l : Str) : ∃ ws, Words l ws := by
  generalize hn : l.length = n
  induction n using Nat.strongRecOn generalizing l with
  | ind n ih =>
    by_cases hall : ∀ c ∈ l, isSpace c = true
    · exact ⟨[], .nil l hall⟩
    · have e1 := List.takeWhile_append_dropWhile (p := isSpace) (l := l)
      have hx : ∃ c x, l.dropWhile isSpace = c :: x ∧ isSpace c = false := by
        cases h : l.dropWhile isSpace with
        | nil =>
          exfalso
          apply hall
          rw [h, List.append_nil] at e1
          intro c hc
          rw [← e1] at hc
          exact List.all_eq_true.mp (List.all_takeWhile (p := isSpace) (l := l)) c hc
        | cons c x =>
          refine ⟨c, x, rfl, ?_⟩
          have := List.head?_dropWhile_not isSpace l
          rw [h] at this
          simpa using this
      obtain ⟨c, x, hcx, hc⟩ := hx
      have e2 := List.takeWhile_append_dropWhile (p := fun d => !isSpace d) (l := c :: x)
      have hlen : (x.dropWhile (fun d => !isSpace d)).length < n := by
        have h1 := (List.dropWhile_sublist (fun d => !isSpace d) (l := x)).length_le
        have h2 := (List.dropWhile_sublist isSpace (l := l)).length_le
        rw [hcx] at h2
        simp at h2
        omega
      have hdw : (c :: x).dropWhile (fun d => !isSpace d) = x.dropWhile (fun d => !isSpace d) := by
        simp [hc]
      obtain ⟨ws, hws⟩ := ih _ hlen _ rfl
      refine ⟨(c :: x).takeWhile (fun d => !isSpace d) :: ws, ?_⟩
      rw [← e1, hcx]
      conv => arg 1; arg 2; rw [← e2]
      apply Words.cons
      · exact fun d hd => List.all_eq_true.mp (List.all_takeWhile (p := isSpace) (l := l)) d hd
      · simp [hc]
      · intro d hd
        have := List.all_eq_true.mp (List.all_takeWhile (p := fun d => !isSpace d) (l := c :: x)) d hd
        simpa using this
      · intro d hd
        have := List.head?_dropWhile_not (fun d => !isSpace d) (c :: x)
        rw [hd] at this
        simpa using this
      · rw [hdw]; exact hws

/-- Splitting at whitespace computes the words. -/
theorem pySplit_of_Words {l : Str} {ws : List Str} (h : Words l ws) : pySplit l = ws := by
  induction h with
  | nil l h => exact (pySplit_eq_nil_iff l).mpr h
  | cons pre w rest ws hpre hw hw' hrest h ih =>
    unfold pySplit at *
    rw [splitAux_spaces_append _ _ hpre, splitAux_word_append _ _ _ hw', List.nil_append,
      splitAux_flush _ _ hw hrest, ih]

theorem joinSp_Words (ws : List Str) (h : ∀ w ∈ ws, w ≠ [] ∧ ∀ c ∈ w, isSpace c = false) :
    Words (joinSp ws) ws := by
  have hsp : isSpace ' ' = true := by decide
  induction ws with
  | nil => exact .nil _ (by simp [joinSp])
  | cons w ws ih =>
    have hw := h w (by simp)
    have hws := ih (fun v hv => h v (by simp [hv]))
    cases ws with
    | nil => simpa [joinSp] using Words.cons [] w [] [] (by simp) hw.1 hw.2 (by simp) (.nil [] (by simp))
    | cons v vs =>
      have : Words (' ' :: joinSp (v :: vs)) (v :: vs) := by
        generalize joinSp (v :: vs) = t at hws
        cases hws with
        | cons pre w' rest ws' hpre h1 h2 h3 h4 =>
          exact Words.cons (' ' :: pre) v rest vs
            (by intro c hc; rcases List.mem_cons.mp hc with rfl | hc; exact hsp; exact hpre c hc) h1 h2 h3 h4
      have := Words.cons [] w (' ' :: joinSp (v :: vs)) (v :: vs) (by simp) hw.1 hw.2 (by simp [hsp]) this
      simpa [joinSp] using this

theorem Words_mem {l : Str} {ws : List Str} (h : Words l ws) :
    ∀ w ∈ ws, w ≠ [] ∧ ∀ c ∈ w, isSpace c = false := by
  induction h with
  | nil => simp
  | cons pre w rest ws hpre hw hw' hrest h ih =>
    intro v hv
    rcases List.mem_cons.mp hv with rfl | hv
    · exact ⟨hw, hw'⟩
    · exact ih v hv

/-! ## C01 -/

/-- **C01** Converting a line never fails. -/
theorem C01_no_error (line : Str) : ∃ u, utteranceFromLine line = .ok u :=
  ⟨_, utteranceFromLine_eq line⟩

/-- **C01** A line without words gives the empty utterance. -/
theorem C01_blank (line : Str) (h : Words line []) : utteranceFromLine line = .ok [] := by
  rw [utteranceFromLine_eq, pySplit_of_Words h]; rfl

/-- **C01** A line with words `ws` gives the words of the line with `<s>` added in front unless it is the first word
and `</s>` added to the end unless it is the last word. -/
theorem C01_words (line : Str) (ws : List Str) (h : Words line ws) (hne : ws ≠ []) :
    ∃ pre post, utteranceFromLine line = .ok (pre ++ ws ++ post) ∧
      (pre = if ws.head? = some sos then [] else [sos]) ∧
      (post = if ws.getLast? = some eos then [] else [eos]) := by
  refine ⟨_, _, ?_, rfl, rfl⟩
  rw [utteranceFromLine_eq, pySplit_of_Words h, if_neg hne]

/-- **C01** The utterance of a line with words starts with `<s>`, ends with `</s>` and has at least two words. -/
theorem C01_delimited (line : Str) (ws : List Str) (h : Words line ws) (hne : ws ≠ []) :
    ∃ u, utteranceFromLine line = .ok u ∧ u.head? = some sos ∧ u.getLast? = some eos ∧ 2 ≤ u.length := by
  obtain ⟨pre, post, h1, h2, h3⟩ := C01_words line ws h hne
  refine ⟨_, h1, ?_, ?_, ?_⟩
  · rw [h2]; split
    · rename_i h4
      obtain ⟨w, ws, rfl⟩ := List.exists_cons_of_ne_nil hne
      simpa using h4
    · simp
  · rw [h3]; split
    · rename_i h4
      rw [List.append_nil, List.getLast?_append, h4]; rfl
    · simp
  · obtain ⟨w, ws, rfl⟩ := List.exists_cons_of_ne_nil hne
    rw [h2, h3]
    by_cases hw : w = sos
    · subst hw
      by_cases hl : (sos :: ws).getLast? = some eos
      · cases ws with
        | nil => simp [sos, eos] at hl
        | cons v vs => simp
      · simp only [hl, if_false]; simp
    · simp [hw]

/-- **C01** Re-converting the space-joined utterance gives the same utterance. -/
theorem C01_idempotent (line : Str) (u : List Str) (h : utteranceFromLine line = .ok u) :
    utteranceFromLine (joinSp u) = .ok u := by
  obtain ⟨ws, hws⟩ := Words_total line
  by_cases hne : ws = []
  · subst hne
    rw [C01_blank line hws] at h
    cases h
    decide
  · have hu := C01_delimited line ws hws hne
    obtain ⟨u', h1, h2, h3, h4⟩ := hu
    obtain ⟨pre, post, h5, h6, h7⟩ := C01_words line ws hws hne
    rw [h1] at h; cases h
    have hmem : ∀ w ∈ u, w ≠ [] ∧ ∀ c ∈ w, isSpace c = false := by
      rw [h1] at h5
      cases h5
      intro w hw
      have hs : sos ≠ [] ∧ ∀ c ∈ sos, isSpace c = false := by decide
      have he : eos ≠ [] ∧ ∀ c ∈ eos, isSpace c = false := by decide
      rw [List.mem_append, List.mem_append] at hw
      rcases hw with (hw | hw) | hw
      · rw [h6] at hw; split at hw
        · simp at hw
        · rw [List.mem_singleton] at hw; subst hw; exact hs
      · exact Words_mem hws w hw
      · rw [h7] at hw; split at hw
        · simp at hw
        · rw [List.mem_singleton] at hw; subst hw; exact he
    have hW := joinSp_Words u hmem
    obtain ⟨p, q, e1, e2, e3⟩ := C01_words _ u hW (by intro hc; rw [hc] at h4; simp at h4)
    rw [e1, e2, e3, h2, h3]
    simp

/-- The hypotheses are satisfiable: " a b\n" has the words `a` and `b`. -/
example : Words " a b\n".toList ["a".toList, "b".toList] ∧ ["a".toList, "b".toList] ≠ [] := by
  refine ⟨?_, by simp⟩
  exact Words.cons [' '] ['a'] [' ', 'b', '\n'] _ (by decide) (by decide) (by decide) (by simp; decide)
    (Words.cons [' '] ['b'] ['\n'] _ (by decide) (by decide) (by decide) (by simp; decide) (.nil _ (by decide)))

example : utteranceFromLine " a b\n".toList = .ok [sos, "a".toList, "b".toList, eos] := by decide
example : utteranceFromLine "</s>".toList = .ok [sos, eos] := by decide
example : utteranceFromLine "<s>".toList = .ok [sos, eos] := by decide

/-! ## C02 -/

/-- **C02** The returned pointers are 0 and every position inside the data that directly follows a newline, in
increasing order without repetition. -/
theorem C02_positions (nl : α → Bool) (data : List α) :
    (∀ p, p ∈ findSentenceStarts nl data ↔
      p = 0 ∨ (0 < p ∧ p < data.length ∧ ∃ x, data[p - 1]? = some x ∧ nl x = true)) ∧
    (findSentenceStarts nl data).Pairwise (· < ·) := by
  have e : findSentenceStarts nl data = 0 :: startsFrom nl data 0 := by
    unfold findSentenceStarts
    rw [sentenceStartsLoop_eq _ _ _ _ _ (by omega)]; rfl
  rw [e]
  constructor
  · intro p
    simp only [List.mem_cons, startsFrom, List.mem_filter, List.mem_range, Bool.and_eq_true, decide_eq_true_eq,
      Option.any_eq_true]
    constructor
    · rintro (h | ⟨h1, h2, h3⟩)
      · exact .inl h
      · exact .inr ⟨h2, h1, h3⟩
    · rintro (h | ⟨h1, h2, h3⟩)
      · exact .inl h
      · exact .inr ⟨h2, h1, h3⟩
  · rw [List.pairwise_cons]
    constructor
    · intro q hq
      simp only [startsFrom, List.mem_filter, List.mem_range, Bool.and_eq_true, decide_eq_true_eq] at hq
      exact hq.2.1
    · exact List.Pairwise.filter _ List.pairwise_lt_range

/-- **C02** Reading one line from each pointer, in order, gives back the whole data. -/
theorem C02_lines_cover (nl : α → Bool) (data : List α) :
    ((findSentenceStarts nl data).map (readlineAt nl data)).flatten = data := by
  have e : findSentenceStarts nl data = 0 :: startsFrom nl data 0 := by
    unfold findSentenceStarts
    rw [sentenceStartsLoop_eq _ _ _ _ _ (by omega)]; rfl
  rw [e, List.map_cons, List.flatten_cons, readlines_flatten nl data data.length 0 (by omega)]
  rfl

/-- **C02** What is read from a pointer is one line: it contains a newline at most as its last element, and unless
the data ends there it does end with a newline; it is empty only if the data is. -/
theorem C02_one_line (nl : α → Bool) (data : List α) (p : Nat) (hp : p ∈ findSentenceStarts nl data) :
    (∀ x ∈ (readlineAt nl data p).dropLast, nl x = false) ∧
    ((∃ x, (readlineAt nl data p).getLast? = some x ∧ nl x = true) ∨ readlineAt nl data p = data.drop p) ∧
    (readlineAt nl data p = [] → data = []) := by
  have hpos := ((C02_positions nl data).1 p).mp hp
  have hplt : data ≠ [] → p < data.length := by
    intro hne
    have : 0 < data.length := List.length_pos_iff.mpr hne
    rcases hpos with rfl | h
    · exact this
    · exact h.2.1
  cases h : (data.drop p).findIdx? nl with
  | none =>
    have hr : readlineAt nl data p = data.drop p := by simp [readlineAt, h]
    rw [hr]
    rw [List.findIdx?_eq_none_iff] at h
    refine ⟨fun x hx => h x (List.dropLast_subset _ hx), .inr rfl, ?_⟩
    intro he
    by_cases hne : data = []
    · exact hne
    · have := hplt hne
      rw [List.drop_eq_nil_iff] at he
      omega
  | some i =>
    have hr : readlineAt nl data p = (data.drop p).take (i + 1) := by simp [readlineAt, h]
    rw [hr]
    rw [List.findIdx?_eq_some_iff_getElem] at h
    obtain ⟨hi, hnl, hmin⟩ := h
    refine ⟨?_, .inl ⟨(data.drop p)[i], ?_, hnl⟩, ?_⟩
    · intro x hx
      rw [List.dropLast_eq_take, List.length_take, List.take_take, List.mem_take_iff_getElem] at hx
      obtain ⟨j, hj, rfl⟩ := hx
      have := hmin j (by omega)
      simpa using this
    · rw [List.getLast?_take, if_neg (by omega)]
      simp [List.getElem?_eq_getElem hi]
    · intro he
      have := congrArg List.length he
      rw [List.length_take] at this
      simp at this
      simp at hi
      omega

example : findSentenceStarts (· == '\n') "a\n\nb\n".toList = [0, 2, 3] := by decide
example : (findSentenceStarts (· == '\n') "a\n\nb\n".toList).map (readlineAt (· == '\n') "a\n\nb\n".toList) =
    ["a\n".toList, "\n".toList, "b\n".toList] := by decide

end TheanoLM
