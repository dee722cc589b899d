import Verif.Model.WordClassFile
import Verif.Props.WordClasses
import Verif.Props.Vocabulary
import Verif.Props.Statistics
import Verif.Lemmas.SlfRoundTrip
/-!
# Lemmas about the output of wctool
-/
namespace TheanoLM

/-! ## Numbers -/

theorem decimal_eq (n : Nat) : decimal n = Nat.toDigits 10 n := by
  unfold decimal
  rw [Nat.toString_eq_ofList_toDigits, String.toList_ofList]

theorem isSpace_digit {c : Char} (h : c.isDigit = true) : isSpace c = false := by
  have h' : 48 ≤ c.toNat ∧ c.toNat ≤ 57 := by
    simp only [Char.isDigit, Bool.and_eq_true, decide_eq_true_eq, ge_iff_le, UInt32.le_iff_toNat_le] at h
    exact h
  unfold isSpace
  obtain ⟨h1, h2⟩ := h'
  generalize c.toNat = n at h1 h2
  simp only [Bool.or_eq_false_iff, Bool.and_eq_false_iff, decide_eq_false_iff_not, beq_eq_false_iff_ne]
  omega

theorem decimal_digit {n : Nat} {c : Char} (h : c ∈ decimal n) : c.isDigit = true := by
  rw [decimal_eq] at h
  exact Nat.isDigit_of_mem_toDigits (by omega) (by omega) h

theorem decimal_ne_nil (n : Nat) : decimal n ≠ [] := by
  rw [decimal_eq]
  intro h
  have := Nat.length_toDigits_pos (b := 10) (n := n)
  rw [h] at this
  simp at this

theorem decimal_field (n : Nat) : decimal n ≠ [] ∧ ∀ c ∈ decimal n, isSpace c = false :=
  ⟨decimal_ne_nil n, fun _ hc => isSpace_digit (decimal_digit hc)⟩

theorem ofDigitChars_zeros (k : Nat) : Nat.ofDigitChars 10 (List.replicate k '0') 0 = 0 := by
  induction k with
  | zero => rfl
  | succ k ih => rw [List.replicate_succ, Nat.ofDigitChars_cons]; simp [ih]

theorem decimal5_inj {m n : Nat} (h : decimal5 m = decimal5 n) : m = n := by
  have key : ∀ k, Nat.ofDigitChars 10 (decimal5 k) 0 = k := by
    intro k
    unfold decimal5
    rw [Nat.ofDigitChars_append, ofDigitChars_zeros, decimal_eq, Nat.ofDigitChars_ten_toDigits]
  rw [← key m, h, key n]

/-- The name of a class in SRILM format. -/
def className (n : Nat) : Str := "CLASS-".toList ++ decimal5 n

theorem className_inj {m n : Nat} (h : className m = className n) : m = n :=
  decimal5_inj (List.append_cancel_left h)

theorem className_field (n : Nat) : className n ≠ [] ∧ ∀ c ∈ className n, isSpace c = false := by
  constructor
  · unfold className; simp
  · intro c hc
    unfold className decimal5 at hc
    rcases List.mem_append.mp hc with hc | hc
    · have : ∀ c ∈ "CLASS-".toList, isSpace c = false := by decide
      exact this c hc
    · rcases List.mem_append.mp hc with hc | hc
      · rw [List.eq_of_mem_replicate hc]; decide
      · exact (decimal_field n).2 c hc

/-! ## Lines -/

theorem Words_newline {l : Str} {ws : List Str} (h : Words l ws) : Words (l ++ ['\n']) ws := by
  induction h with
  | nil l h =>
    refine .nil _ ?_
    intro c hc
    rcases List.mem_append.mp hc with hc | hc
    · exact h c hc
    · rw [List.mem_singleton.mp hc]; decide
  | cons pre w rest ws hpre hw hw' hrest h ih =>
    have : pre ++ (w ++ rest) ++ ['\n'] = pre ++ (w ++ (rest ++ ['\n'])) := by simp
    rw [this]
    refine .cons pre w _ ws hpre hw hw' ?_ ih
    intro c hc
    cases rest with
    | nil => simp at hc; rw [← hc]; decide
    | cons d rest => exact hrest c hc

/-- A word that can be read from a text file. -/
def FieldWord (w : Str) : Prop := w ≠ [] ∧ ∀ c ∈ w, isSpace c = false

theorem FieldWord.newline {w : Str} (h : FieldWord w) : '\n' ∉ w := by
  intro hc
  have := h.2 _ hc
  revert this; decide

theorem joinSp_newline {ws : List Str} (h : ∀ w ∈ ws, FieldWord w) : '\n' ∉ joinSp ws := by
  induction ws with
  | nil => simp [joinSp]
  | cons w ws ih =>
    cases ws with
    | nil => exact (h w (by simp)).newline
    | cons w' ws =>
      intro hc
      rw [joinSp] at hc
      · rcases List.mem_append.mp hc with hc | hc
        · exact (h w (by simp)).newline hc
        · rcases List.mem_cons.mp hc with hc | hc
          · revert hc; decide
          · exact ih (fun x hx => h x (by simp [hx])) hc
      · simp

/-! ## The contents of one list of classes -/

/-- What is needed of the conversion between numbers and text: converting to text and back gives the same number, and
the text of a probability is a word. -/
structure FaithfulNumbers (P : Parsers) (showProb : ℚ → Str) : Prop where
  int : ∀ n : Nat, P.int (toString n).toList = some (n : ℤ)
  float : ∀ q, P.float (showProb q) = some q
  word : ∀ q, showProb q ≠ [] ∧ ∀ c ∈ showProb q, isSpace c = false

/-- The text that `save` writes. -/
def classText (showProb : ℚ → Str) (fmt : VocFormat) (cfg : OptCfg) (s : OptSt) : Str :=
  ((optWords cfg s).map (classLine showProb fmt)).flatten

/-- The entry that a line says. -/
def classEntry (fmt : VocFormat) (e : Str × Nat × ℚ) : Option FileId × ℚ × Str :=
  match fmt with
  | .classes => (some (.num e.2.1), 1, e.1)
  | .srilmClasses => (some (.name (className e.2.1)), e.2.2, e.1)
  | _ => (none, 1, e.1)

theorem classLine_spec {P : Parsers} {showProb : ℚ → Str} (hP : FaithfulNumbers P showProb) {fmt : VocFormat}
    (hf : fmt = .classes ∨ fmt = .srilmClasses) {e : Str × Nat × ℚ} (hw : FieldWord e.1) :
    IsLine (classLine showProb fmt e) ∧ ∃ ws, Words (classLine showProb fmt e) ws ∧ EntryOf P fmt ws (classEntry fmt e) := by
  rcases hf with rfl | rfl
  · have h : ∀ w ∈ [e.1, decimal e.2.1], FieldWord w := by
      intro w hw'
      simp only [List.mem_cons, List.not_mem_nil, or_false] at hw'
      rcases hw' with rfl | rfl
      · exact hw
      · exact decimal_field _
    have he : classLine showProb .classes e = joinSp [e.1, decimal e.2.1] ++ ['\n'] := by
      show e.1 ++ ' ' :: decimal e.2.1 ++ ['\n'] = _
      generalize decimal e.2.1 = d
      rfl
    rw [he]
    exact ⟨⟨_, rfl, joinSp_newline h⟩, _, Words_newline (joinSp_Words _ h), .classes _ _ _ (hP.int _)⟩
  · have h : ∀ w ∈ [className e.2.1, showProb e.2.2, e.1], FieldWord w := by
      intro w hw'
      simp only [List.mem_cons, List.not_mem_nil, or_false] at hw'
      rcases hw' with rfl | rfl | rfl
      · exact className_field _
      · exact hP.word _
      · exact hw
    have he : classLine showProb .srilmClasses e = joinSp [className e.2.1, showProb e.2.2, e.1] ++ ['\n'] := by
      show "CLASS-".toList ++ decimal5 e.2.1 ++ ' ' :: showProb e.2.2 ++ ' ' :: e.1 ++ ['\n'] =
        joinSp ["CLASS-".toList ++ decimal5 e.2.1, _, _] ++ _
      generalize decimal5 e.2.1 = d
      generalize "CLASS-".toList = p
      simp [joinSp]
    rw [he]
    exact ⟨⟨_, rfl, joinSp_newline h⟩, _, Words_newline (joinSp_Words _ h), .srilm _ _ _ _ (hP.float _)⟩

theorem Entries_map {P : Parsers} {showProb : ℚ → Str} (hP : FaithfulNumbers P showProb) {fmt : VocFormat}
    (hf : fmt = .classes ∨ fmt = .srilmClasses) (es : List (Str × Nat × ℚ)) (hw : ∀ e ∈ es, FieldWord e.1) :
    Entries P fmt (fileLines (es.map (classLine showProb fmt)).flatten) (es.map (classEntry fmt)) := by
  rw [fileLines_flatten]
  · induction es with
    | nil => exact .nil
    | cons e es ih =>
      obtain ⟨_, ws, h1, h2⟩ := classLine_spec hP hf (hw e (by simp))
      exact .cons _ _ ws _ _ h1 h2 (ih (fun x hx => hw x (by simp [hx])))
  · intro l hl
    obtain ⟨e, he, rfl⟩ := List.mem_map.mp hl
    exact (classLine_spec hP hf (hw e he)).1

theorem zipIdx_eq_range (l : List Str) : l.zipIdx = (List.range l.length).map (fun i => (l.getD i [], i)) := by
  apply List.ext_getElem?
  intro i
  rw [List.getElem?_zipIdx, List.getElem?_map]
  by_cases hi : i < l.length
  · simp [hi]
  · simp [hi]

theorem optWords_eq (cfg : OptCfg) (s : OptSt) : optWords cfg s = (List.range cfg.vocab.idToWord.length).map
    (fun i => (cfg.vocab.idToWord.getD i [], s.wordToClass i, optWordProb cfg s i)) := by
  unfold optWords
  rw [zipIdx_eq_range, List.map_map]
  rfl

theorem optWords_words (cfg : OptCfg) (s : OptSt) : (optWords cfg s).map Prod.fst = cfg.vocab.idToWord := by
  unfold optWords
  rw [List.map_map]
  exact List.zipIdx_map_fst _ _

theorem optWords_get (cfg : OptCfg) (s : OptSt) {i : Nat} {w : Str} (h : cfg.vocab.idToWord[i]? = some w) :
    (optWords cfg s)[i]? = some (w, s.wordToClass i, optWordProb cfg s i) := by
  unfold optWords
  rw [List.getElem?_map, List.getElem?_zipIdx, h]
  simp

end TheanoLM
