import Verif.Lemmas.LoadedVocabulary
import Verif.Props.Vocabulary

/-!
# C136: any vocabulary in a model file is read as it is or rejected
-/

namespace TheanoLM

/-- A file that lacks the words, the classes or the probabilities is incompatible. -/
theorem C136_missing (s : VocabState) (h : s.words = none ∨ s.classes = none ∨ s.probs = none) :
    vocabFromState (some s) = .error .incompatibleState := by
  obtain ⟨w, c, p, u⟩ := s
  unfold vocabFromState
  rcases w with _ | w <;> rcases c with _ | c <;> rcases p with _ | p <;> simp_all

/-- Exactly the consistent files can be read. -/
theorem C136_accepted_iff (words : List Str) (classOf : List Nat) (probs : List ℚ) (unigram : Option (List ℚ))
    (hf : FileConsidered words classOf probs) :
    (∃ v, vocabFromState (some ⟨some words, some classOf, some probs, unigram⟩) = .ok v) ↔
      FileConsistent words classOf probs unigram := by
  constructor
  · rintro ⟨v, h⟩
    exact consistent_of_ok h
  · intro hg
    obtain ⟨m, k, _, h⟩ := fromState_eq hf hg
    exact ⟨_, h⟩

/-- The words, the classes and the unigram probabilities are those of the file, there are as many classes as the largest
class ID says, and the probability of a word is its share of the probability of its class. -/
theorem C136_contents (words : List Str) (classOf : List Nat) (probs : List ℚ) (unigram : Option (List ℚ))
    (hf : FileConsidered words classOf probs) (v : Vocab)
    (h : vocabFromState (some ⟨some words, some classOf, some probs, unigram⟩) = .ok v) :
    v.idToWord = words ∧ v.classOf = classOf ∧ v.unigram = unigram ∧
    (∀ c, c < v.numClasses ↔ ∃ d ∈ classOf, c ≤ d) ∧
    ∀ i p c, probs[i]? = some p → classOf[i]? = some c → v.getWordProb i = .ok (p / fileMass classOf probs c) := by
  obtain ⟨m, k, hm, h'⟩ := fromState_eq hf (consistent_of_ok h)
  rw [h'] at h
  injection h with h
  subst h
  have hmm := List.max?_eq_some_iff.mp hm
  refine ⟨rfl, rfl, rfl, ?_, ?_⟩
  · intro c
    simp only [Vocab.numClasses, normClasses, List.length_map, List.length_range]
    constructor
    · intro hc
      exact ⟨m, hmm.1, by omega⟩
    · rintro ⟨d, hd, hcd⟩
      have := hmm.2 d hd
      omega
  · intro i p c hp hc
    have hcm : c < m + 1 := by
      have := hmm.2 c (List.mem_of_getElem? hc)
      omega
    unfold Vocab.getWordProb
    simp only
    rw [hc]
    simp only [Vocab.memberProb]
    rw [normClasses_get hcm]
    simp only [WordClass.getProb]
    have hi := (List.getElem?_eq_some_iff.mp hp).1
    rw [dictGet?_map _ (fun i => probs.getD i 0 / fileMass classOf probs c) i (mem_fileMembers.mpr ⟨hi, hc⟩)]
    simp [hp]

/-- The probabilities of the words of a class sum to one. -/
theorem C136_normalized (words : List Str) (classOf : List Nat) (probs : List ℚ) (unigram : Option (List ℚ))
    (hf : FileConsidered words classOf probs) (v : Vocab)
    (h : vocabFromState (some ⟨some words, some classOf, some probs, unigram⟩) = .ok v) (c : Nat)
    (hc : c < v.numClasses) :
    ∃ qs, mapE v.getWordProb (fileMembers classOf probs c) = .ok qs ∧ qs.sum = 1 := by
  have hg := consistent_of_ok h
  obtain ⟨h1, h2, h3, h4, h5⟩ := C136_contents words classOf probs unigram hf v h
  refine ⟨(fileMembers classOf probs c).map (fun i => probs.getD i 0 / fileMass classOf probs c), ?_, ?_⟩
  · apply mapE_eq
    intro i hi
    obtain ⟨hi, hic⟩ := mem_fileMembers.mp hi
    rw [h5 i probs[i] c (List.getElem?_eq_getElem hi) hic]
    simp [hi]
  · rw [sum_map_div]
    apply div_self
    apply hf.mass
    obtain ⟨d, hd, hcd⟩ := (h4 c).mp hc
    obtain ⟨i, hi, hic⟩ := hg.used d hd c hcd
    exact List.ne_nil_of_mem (mem_fileMembers.mpr ⟨hi, hic⟩)

/-- A shortlist word without a probability in the file is accepted, but its probability cannot be asked. -/
theorem C136_no_probability (words : List Str) (classOf : List Nat) (probs : List ℚ) (unigram : Option (List ℚ))
    (hf : FileConsidered words classOf probs) (v : Vocab)
    (h : vocabFromState (some ⟨some words, some classOf, some probs, unigram⟩) = .ok v) (i : Nat)
    (h1 : probs.length ≤ i) (h2 : i < classOf.length) : v.getWordProb i = .error .keyError := by
  obtain ⟨m, k, hm, h'⟩ := fromState_eq hf (consistent_of_ok h)
  rw [h'] at h
  injection h with h
  subst h
  have hmm := List.max?_eq_some_iff.mp hm
  have hc : classOf[i]? = some classOf[i] := List.getElem?_eq_getElem h2
  have hcm : classOf[i] < m + 1 := by
    have := hmm.2 _ (List.getElem_mem h2)
    omega
  unfold Vocab.getWordProb
  simp only
  rw [hc]
  simp only [Vocab.memberProb]
  rw [normClasses_get hcm]
  simp only [WordClass.getProb]
  have hn : dictGet? ((fileMembers classOf probs classOf[i]).map
      (fun j => (j, probs.getD j 0 / fileMass classOf probs classOf[i]))) i = none := by
    rw [dictGet?_none, List.map_map]
    intro hmem
    obtain ⟨j, hj, he⟩ := List.mem_map.mp hmem
    have := (mem_fileMembers.mp hj).1
    simp only [Function.comp] at he
    omega
  rw [hn]

/-! ## Concrete files -/

/-- Two ordinary words in one class with probabilities that do not sum to one. -/
def exFileWords : List Str := ["a".toList, "b".toList, sos, eos, unk, "c".toList]
def exFileClasses : List Nat := [0, 0, 1, 2, 3]

theorem exFile_considered : FileConsidered exFileWords exFileClasses [1, 3, 1, 1, 1] := by
  refine ⟨by decide, ?_⟩
  intro c hc
  have : c < 4 := by
    by_contra hcon
    apply hc
    rw [List.eq_nil_iff_forall_not_mem]
    intro i hi
    have := List.mem_of_getElem? (mem_fileMembers.mp hi).2
    simp [exFileClasses] at this
    omega
  have hall : ∀ c < 4, fileMass exFileClasses [1, 3, 1, 1, 1] c ≠ 0 := by decide +kernel
  exact hall c this

example : ∃ v, vocabFromState (some ⟨some exFileWords, some exFileClasses, some [1, 3, 1, 1, 1], none⟩) = .ok v ∧
    v.getWordProb 1 = .ok (3 / 4) ∧ v.numClasses = 4 := by decide +kernel

/-- A class without words, too many probabilities, a missing special token and a wrong number of unigram probabilities. -/
example : vocabFromState (some ⟨some exFileWords, some [0, 0, 1, 2, 4], some [1, 3, 1, 1, 1], none⟩) = .error .typeError ∧
    vocabFromState (some ⟨some exFileWords, some exFileClasses, some [1, 3, 1, 1, 1, 1], none⟩) = .error .indexError ∧
    vocabFromState (some ⟨some (exFileWords.take 4), some [0, 0, 1, 2], some [1, 3, 1, 1], none⟩) = .error .valueError ∧
    vocabFromState (some ⟨some exFileWords, some exFileClasses, some [1, 3, 1, 1, 1], some [1]⟩) =
      .error .incompatibleState := by decide +kernel

/-- A file with too few probabilities is accepted if the remaining words are in classes that have other words. -/
example : ∃ v, vocabFromState (some ⟨some exFileWords, some [0, 1, 2, 3, 0], some [1, 3, 1, 1], none⟩) = .ok v ∧
    v.getWordProb 4 = .error .keyError := by decide +kernel

end TheanoLM
