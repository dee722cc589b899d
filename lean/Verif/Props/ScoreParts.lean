import Verif.Props.ScoreOutput
import Verif.Props.DecodeOutput
/-!
# Dividing a text into parts does not change the scores of its utterances (C147)
-/
namespace TheanoLM

variable {S : Type} [Field S] [LinearOrder S]

/-- Writing the scores of the utterances of the text finishes with the given output, or with the given exception after the output. -/
def UtteranceOutput (sc : Scorer S) (showNum : Flt S → Str) (log : Nat → S) (base : Option Nat) (text out : Str) (e : Option Err) : Prop :=
  ∀ marking fuel, scoreCommand sc showNum log base marking "utterance-scores".toList fuel text = some (out, e)

/-- The text consists of complete lines. -/
def CompleteLines (text : Str) : Prop := ∀ c, text.getLast? = some c → c = '\n'

theorem utteranceOutput_iff (sc : Scorer S) (showNum : Flt S → Str) (log : Nat → S) (base : Option Nat) (text out : Str) (e : Option Err) :
    UtteranceOutput sc showNum log base text out e ↔
      scoreUtterancesLoop sc showNum (scoreScale log base) (fileLines text) = (out, e) := by
  have h : ∀ marking fuel, scoreCommand sc showNum log base marking "utterance-scores".toList fuel text =
      some (scoreUtterancesLoop sc showNum (scoreScale log base) (fileLines text)) := by
    intro marking fuel
    unfold scoreCommand scoreUtterances
    rw [if_neg (by decide), if_neg (by decide), if_pos rfl]
  unfold UtteranceOutput
  constructor
  · intro g
    exact Option.some.inj ((h .noMarking 0).symm.trans (g .noMarking 0))
  · intro g marking fuel
    rw [h, g]

theorem utterancesLoop_append (sc : Scorer S) (showNum : Flt S → Str) (scale : S) (a b : List Str) :
    scoreUtterancesLoop sc showNum scale (a ++ b) =
      match scoreUtterancesLoop sc showNum scale a with
      | (out, some e) => (out, some e)
      | (out, none) => (out ++ (scoreUtterancesLoop sc showNum scale b).1, (scoreUtterancesLoop sc showNum scale b).2) := by
  induction a with
  | nil => simp [scoreUtterancesLoop]
  | cons l a ih =>
    simp only [List.cons_append, scoreUtterancesLoop]
    cases sc.scoreLine l with
    | error e => rfl
    | ok x =>
      cases x with
      | none => exact ih
      | some x =>
        simp only
        rw [ih]
        rcases scoreUtterancesLoop sc showNum scale a with ⟨out, _ | e⟩
        · simp
        · rfl

theorem complete_cases {a : Str} (h : CompleteLines a) : a = [] ∨ a.getLast? = some '\n' := by
  cases hl : a.getLast? with
  | none => exact .inl (List.getLast?_eq_none_iff.mp hl)
  | some c => exact .inr (by rw [h c hl])

/-- C147: if scoring the first part, which consists of complete lines, finishes, the output for the text is the output for the first part
and then the output for the second part, and scoring the text ends in an exception exactly if scoring the second part does. -/
theorem C147_two (sc : Scorer S) (showNum : Flt S → Str) (log : Nat → S) (base : Option Nat) (first second out out' : Str)
    (e : Option Err) (hc : CompleteLines first) (h : UtteranceOutput sc showNum log base first out none)
    (h' : UtteranceOutput sc showNum log base second out' e) :
    UtteranceOutput sc showNum log base (first ++ second) (out ++ out') e := by
  rw [utteranceOutput_iff] at h h' ⊢
  rw [fileLines_append (complete_cases hc), utterancesLoop_append, h, h']

/-- C147: if scoring the first part ends in an exception, scoring the text ends in the same exception after the same output. -/
theorem C147_fails (sc : Scorer S) (showNum : Flt S → Str) (log : Nat → S) (base : Option Nat) (first second out : Str)
    (e : Err) (hc : CompleteLines first) (h : UtteranceOutput sc showNum log base first out (some e)) :
    UtteranceOutput sc showNum log base (first ++ second) out (some e) := by
  rw [utteranceOutput_iff] at h ⊢
  rw [fileLines_append (complete_cases hc), utterancesLoop_append, h]

theorem utteranceOutput_exists (sc : Scorer S) (showNum : Flt S → Str) (log : Nat → S) (base : Option Nat) (text : Str) :
    ∃ out e, UtteranceOutput sc showNum log base text out e :=
  ⟨_, _, (utteranceOutput_iff ..).mpr rfl⟩

theorem utteranceOutput_unique {sc : Scorer S} {showNum : Flt S → Str} {log : Nat → S} {base : Option Nat} {text out out' : Str}
    {e e' : Option Err} (h : UtteranceOutput sc showNum log base text out e) (h' : UtteranceOutput sc showNum log base text out' e') :
    out = out' ∧ e = e' := by
  rw [utteranceOutput_iff] at h h'
  exact Prod.mk.inj (h.symm.trans h')

theorem empty_output (sc : Scorer S) (showNum : Flt S → Str) (log : Nat → S) (base : Option Nat) :
    UtteranceOutput sc showNum log base [] [] none := (utteranceOutput_iff ..).mpr rfl

/-- C147: a text of complete lines is divided into any number of parts at the ends of lines.  Scoring the text finishes if and only if
scoring every part finishes, and then it writes what is written for the parts, in order. -/
theorem C147_parts (sc : Scorer S) (showNum : Flt S → Str) (log : Nat → S) (base : Option Nat) (parts : List Str)
    (hc : ∀ p ∈ parts, CompleteLines p) (out : Str) :
    UtteranceOutput sc showNum log base parts.flatten out none ↔
      ∃ outs, List.Forall₂ (fun p o => UtteranceOutput sc showNum log base p o none) parts outs ∧ out = outs.flatten := by
  induction parts generalizing out with
  | nil =>
    constructor
    · intro h
      exact ⟨[], .nil, (utteranceOutput_unique h (empty_output sc showNum log base)).1⟩
    · rintro ⟨outs, h, rfl⟩
      cases h
      exact empty_output sc showNum log base
  | cons p ps ih =>
    have hp := hc p (by simp)
    have ih := fun out => ih (fun q hq => hc q (by simp [hq])) out
    rw [List.flatten_cons]
    constructor
    · intro h
      obtain ⟨o, e, ho⟩ := utteranceOutput_exists sc showNum log base p
      cases e with
      | some e => exact absurd (utteranceOutput_unique h (C147_fails sc showNum log base p ps.flatten o e hp ho)).2 nofun
      | none =>
        obtain ⟨o', e', ho'⟩ := utteranceOutput_exists sc showNum log base ps.flatten
        obtain ⟨rfl, rfl⟩ := utteranceOutput_unique h (C147_two sc showNum log base p ps.flatten o o' e' hp ho ho')
        obtain ⟨outs, h1, rfl⟩ := (ih o').mp ho'
        exact ⟨o :: outs, .cons ho h1, rfl⟩
    · rintro ⟨outs, h, rfl⟩
      cases h with
      | cons hd tl => exact C147_two sc showNum log base p ps.flatten _ _ none hp hd ((ih _).mpr ⟨_, tl, rfl⟩)

/-- A case that meets the hypotheses: the parts are two lines, a blank line, and a line. -/
example : (∀ p ∈ ["a\n zzz a\n".toList, "\n".toList, "a c\n".toList], CompleteLines p) ∧
    UtteranceOutput (exScorer true false) exShowNum (fun b => b) (some 2) ["a\n zzz a\n".toList, "\n".toList, "a c\n".toList].flatten
      "-3/2\n-5/2\n-3/1\n".toList none := by
  refine ⟨?_, (utteranceOutput_iff ..).mpr (by decide +kernel)⟩
  have h : ∀ p ∈ ["a\n zzz a\n".toList, "\n".toList, "a c\n".toList], ∀ c ∈ p.getLast?, c = '\n' := by decide +kernel
  exact fun p hp c hc' => h p hp c hc'

/-- The condition that the parts consist of complete lines is needed: here one line is divided. -/
theorem C147_necessary : ∃ (first second out out' whole : Str), UtteranceOutput (exScorer true false) exShowNum (fun b => b) none first out none ∧
    UtteranceOutput (exScorer true false) exShowNum (fun b => b) none second out' none ∧
    UtteranceOutput (exScorer true false) exShowNum (fun b => b) none (first ++ second) whole none ∧ whole ≠ out ++ out' := by
  refine ⟨"a ".toList, "a\n".toList, "-3/1\n".toList, "-3/1\n".toList, "-6/1\n".toList, (utteranceOutput_iff ..).mpr ?_,
    (utteranceOutput_iff ..).mpr ?_, (utteranceOutput_iff ..).mpr ?_, ?_⟩ <;> decide +kernel

end TheanoLM
