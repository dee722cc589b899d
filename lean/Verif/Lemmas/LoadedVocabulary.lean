import Verif.Lemmas.VocabProbs
import Verif.Props.LoadedVocabularySpec

/-! # Reading an arbitrary vocabulary from a model file -/

namespace TheanoLM

theorem fileMembers_eq {classOf : List Nat} {probs : List ℚ} (h : probs.length ≤ classOf.length) (c : Nat) :
    idsOf (classOf.take probs.length) c = fileMembers classOf probs c := by
  unfold idsOf fileMembers
  rw [List.length_take, Nat.min_eq_left h]
  apply List.filter_congr
  intro i hi
  rw [List.getElem?_take_of_lt (List.mem_range.mp hi)]

theorem mem_fileMembers {classOf : List Nat} {probs : List ℚ} {c i : Nat} :
    i ∈ fileMembers classOf probs c ↔ i < probs.length ∧ classOf[i]? = some c := by
  unfold fileMembers
  rw [List.mem_filter, List.mem_range]
  simp

theorem fromStateLoop_le (n : Nat) (classOf : List Nat) (ps : List ℚ) (hlen : ps.length ≤ classOf.length)
    (hlt : ∀ c ∈ classOf, c < n) (rest : List ℚ) (k : Nat) (hr : rest = ps.drop k) (hk : k ≤ ps.length) :
    fromStateLoop classOf (rest.zipIdx k) (stateAt n classOf ps k) = .ok (stateAt n classOf ps ps.length) := by
  induction rest generalizing k with
  | nil =>
    have : ps.length ≤ k := by
      have := congrArg List.length hr
      simp at this; omega
    have : k = ps.length := by omega
    subst this
    rfl
  | cons p rest ih =>
    have hkl : k < ps.length := by
      have := congrArg List.length hr
      simp at this; omega
    rw [List.zipIdx_cons]
    unfold fromStateLoop
    have hdk := List.drop_eq_getElem_cons hkl
    rw [hdk] at hr
    injection hr with hp hr
    have hc : classOf[k]? = some classOf[k] := List.getElem?_eq_getElem _
    have hcn : classOf[k] < n := hlt _ (List.getElem_mem _)
    have hids : idsOf (classOf.take (k + 1)) classOf[k] = idsOf (classOf.take k) classOf[k] ++ [k] := by
      rw [List.take_succ_eq_append_getElem (by omega), idsOf_append, if_pos rfl, List.length_take,
        Nat.min_eq_left (by omega)]
    have hpk : ps.getD k 0 = p := by simp [List.getD, hkl, hp]
    rw [hc]
    simp only
    rw [stateAt_get hcn]
    by_cases hnil : idsOf (classOf.take k) classOf[k] = []
    · rw [if_pos hnil]
      simp only
      rw [stateAt_set hc hcn _ (by rw [hids, hnil]; simp [WordClass.new, hkl, hp])]
      exact ih (k + 1) hr hkl
    · rw [if_neg hnil]
      simp only
      rw [stateAt_set hc hcn]
      · exact ih (k + 1) hr hkl
      · rw [hids, WordClass.setProb]
        simp only
        rw [dictSet_new, List.map_append]
        · simp [hkl, hp]
        · intro hm
          rw [List.map_map] at hm
          obtain ⟨i, hi, he⟩ := List.mem_map.mp hm
          have := idsOf_lt hi
          rw [List.length_take] at this
          simp only [Function.comp] at he
          omega

theorem fromStateLoop_long (classOf : List Nat) (rest : List ℚ) (k : Nat) (classes : List (Option WordClass))
    (hlt : ∀ c ∈ classOf, c < classes.length) (hk : k ≤ classOf.length) (hl : classOf.length < k + rest.length) :
    fromStateLoop classOf (rest.zipIdx k) classes = .error .indexError := by
  induction rest generalizing k classes with
  | nil => simp at hl; omega
  | cons p rest ih =>
    rw [List.zipIdx_cons]
    unfold fromStateLoop
    by_cases hkl : k < classOf.length
    · rw [List.getElem?_eq_getElem hkl]
      simp only
      have hc := hlt _ (List.getElem_mem hkl)
      rw [List.getElem?_eq_getElem hc]
      have hl' : classOf.length < k + 1 + rest.length := by simp at hl; omega
      cases classes[classOf[k]] with
      | none => exact ih _ _ (by simpa using hlt) hkl hl'
      | some c => exact ih _ _ (by simpa using hlt) hkl hl'
    · rw [List.getElem?_eq_none (by omega)]

theorem stateAt_zero (n : Nat) (classOf : List Nat) (ps : List ℚ) :
    List.replicate n none = stateAt n classOf ps 0 := by
  unfold stateAt
  apply List.ext_getElem?
  intro i
  by_cases hi : i < n
  · simp [hi, idsOf]
  · rw [List.getElem?_eq_none (by simp; omega), List.getElem?_eq_none (by simp; omega)]

/-- The classes as they are in the file. -/
def rawClasses (n : Nat) (classOf : List Nat) (ps : List ℚ) : List WordClass :=
  (List.range n).map (fun c => ⟨c, (fileMembers classOf ps c).map (fun i => (i, ps.getD i 0))⟩)

/-- The classes with normalized probabilities. -/
def normClasses (n : Nat) (classOf : List Nat) (ps : List ℚ) : List WordClass :=
  (List.range n).map (fun c => ⟨c, (fileMembers classOf ps c).map (fun i => (i, ps.getD i 0 / fileMass classOf ps c))⟩)

theorem unwrap_state {n : Nat} {classOf : List Nat} {ps : List ℚ} (hlen : ps.length ≤ classOf.length)
    (hu : ∀ c < n, fileMembers classOf ps c ≠ []) :
    mapE unwrapClass (stateAt n classOf ps ps.length) = .ok (rawClasses n classOf ps) := by
  have hend : stateAt n classOf ps ps.length = (rawClasses n classOf ps).map some := by
    unfold stateAt rawClasses
    rw [List.map_map]
    apply List.map_congr_left
    intro c hc
    rw [fileMembers_eq hlen, if_neg (hu c (List.mem_range.mp hc))]
    rfl
  rw [hend]
  generalize rawClasses n classOf ps = l
  induction l with
  | nil => rfl
  | cons a l ih =>
    rw [List.map_cons]
    unfold mapE
    simp only [ih, unwrapClass]

theorem unwrap_state_ok {n : Nat} {classOf : List Nat} {ps : List ℚ} (hlen : ps.length ≤ classOf.length)
    {cs : List WordClass} (h : mapE unwrapClass (stateAt n classOf ps ps.length) = .ok cs) :
    ∀ c < n, fileMembers classOf ps c ≠ [] := by
  intro c hc h0
  have hf := mapE_ok h
  have hm : (none : Option WordClass) ∈ stateAt n classOf ps ps.length := by
    apply List.mem_of_getElem? (i := c)
    rw [stateAt_get hc, fileMembers_eq hlen, if_pos h0]
  have : ∀ (l : List (Option WordClass)) (r : List WordClass),
      List.Forall₂ (fun a b => unwrapClass a = .ok b) l r → none ∉ l := by
    intro l r hl
    induction hl with
    | nil => simp
    | cons hab _ ih =>
      intro hm
      rcases List.mem_cons.mp hm with h | h
      · subst h; cases hab
      · exact ih h
  exact this _ _ hf hm

theorem normalize_raw {n : Nat} {classOf : List Nat} {ps : List ℚ}
    (hm : ∀ c, fileMembers classOf ps c ≠ [] → fileMass classOf ps c ≠ 0) :
    mapE WordClass.normalizeProbs (rawClasses n classOf ps) = .ok (normClasses n classOf ps) := by
  have e : normClasses n classOf ps = (rawClasses n classOf ps).map (fun k =>
      ⟨k.id, (fileMembers classOf ps k.id).map (fun i => (i, ps.getD i 0 / fileMass classOf ps k.id))⟩) := by
    simp [normClasses, rawClasses, List.map_map, Function.comp_def]
  rw [e]
  apply mapE_eq
  intro k hk
  unfold rawClasses at hk
  obtain ⟨c, _, rfl⟩ := List.mem_map.mp hk
  unfold WordClass.normalizeProbs
  have hs : (((fileMembers classOf ps c).map (fun i => (i, ps.getD i 0))).map Prod.snd).sum = fileMass classOf ps c := by
    rw [List.map_map]; rfl
  simp only [hs]
  rw [if_neg]
  · rw [List.map_map]; rfl
  · rintro ⟨h1, h2⟩
    exact hm c (by simpa using h1) h2

/-- What reading gives. -/
theorem fromState_eq {words : List Str} {classOf : List Nat} {probs : List ℚ} {unigram : Option (List ℚ)}
    (hf : FileConsidered words classOf probs) (hg : FileConsistent words classOf probs unigram) :
    ∃ m k, classOf.max? = some m ∧ vocabFromState (some ⟨some words, some classOf, some probs, unigram⟩) =
      .ok ⟨words, classOf, normClasses (m + 1) classOf probs, k, unigram⟩ := by
  obtain ⟨m, hm⟩ : ∃ m, classOf.max? = some m := by
    cases h : classOf.max? with
    | none => exact absurd (List.max?_eq_none_iff.mp h) hg.nonempty
    | some m => exact ⟨m, rfl⟩
  have hmm := List.max?_eq_some_iff.mp hm
  have hlt : ∀ c ∈ classOf, c < m + 1 := fun c hc => by have := hmm.2 c hc; omega
  have hu : ∀ c < m + 1, fileMembers classOf probs c ≠ [] := by
    intro c hc
    obtain ⟨i, hi, hic⟩ := hg.used m hmm.1 c (by omega)
    exact List.ne_nil_of_mem (mem_fileMembers.mpr ⟨hi, hic⟩)
  refine ⟨m, numNormalClasses words (rawClasses (m + 1) classOf probs), hm, ?_⟩
  unfold vocabFromState
  simp only
  rw [hm]
  simp only
  rw [stateAt_zero (m + 1) classOf probs, fromStateLoop_le (m + 1) classOf probs hg.probs hlt probs 0 rfl (Nat.zero_le _)]
  simp only
  rw [unwrap_state hg.probs hu]
  simp only
  unfold mkVocab
  rw [if_neg (by simp [hg.sos, hg.eos, hg.unk]), normalize_raw hf.mass]
  simp only
  cases hun : unigram with
  | none => rfl
  | some u => simp [Vocab.numWords, hg.unigram u hun]

/-- What can be read is consistent. -/
theorem consistent_of_ok {words : List Str} {classOf : List Nat} {probs : List ℚ} {unigram : Option (List ℚ)} {v : Vocab}
    (h : vocabFromState (some ⟨some words, some classOf, some probs, unigram⟩) = .ok v) :
    FileConsistent words classOf probs unigram := by
  unfold vocabFromState at h
  simp only at h
  cases hm : classOf.max? with
  | none => rw [hm] at h; cases h
  | some m =>
    rw [hm] at h
    simp only at h
    have hmm := List.max?_eq_some_iff.mp hm
    have hlt : ∀ c ∈ classOf, c < m + 1 := fun c hc => by have := hmm.2 c hc; omega
    by_cases hlen : probs.length ≤ classOf.length
    · rw [stateAt_zero (m + 1) classOf probs,
        fromStateLoop_le (m + 1) classOf probs hlen hlt probs 0 rfl (Nat.zero_le _)] at h
      simp only at h
      cases hc : mapE unwrapClass (stateAt (m + 1) classOf probs probs.length) with
      | error e => rw [hc] at h; cases h
      | ok cs =>
        rw [hc] at h
        simp only at h
        have hu := unwrap_state_ok hlen hc
        unfold mkVocab at h
        by_cases hs : sos ∈ words ∧ eos ∈ words ∧ unk ∈ words
        · rw [if_neg (by simpa using hs)] at h
          refine ⟨List.ne_nil_of_mem hmm.1, ?_, hlen, hs.1, hs.2.1, hs.2.2, ?_⟩
          · intro d hd c hcd
            obtain ⟨i, hi⟩ := List.exists_mem_of_ne_nil _ (hu c (by have := hlt d hd; omega))
            exact ⟨i, mem_fileMembers.mp hi⟩
          · intro u hu'
            subst hu'
            cases hn : mapE WordClass.normalizeProbs cs with
            | error e => rw [hn] at h; cases h
            | ok cs' =>
              rw [hn] at h
              by_contra hne
              have : (Except.error Err.incompatibleState : Except Err Vocab) = .ok v := by
                rw [← h]
                exact (if_pos hne).symm
              cases this
        · rw [if_pos hs] at h
          cases h
    · rw [fromStateLoop_long classOf probs 0 _ (by simpa using hlt) (Nat.zero_le _) (by omega)] at h
      cases h

theorem normClasses_get {n : Nat} {classOf : List Nat} {ps : List ℚ} {c : Nat} (h : c < n) :
    (normClasses n classOf ps)[c]? = some ⟨c, (fileMembers classOf ps c).map
      (fun i => (i, ps.getD i 0 / fileMass classOf ps c))⟩ := by
  simp [normClasses, h]

end TheanoLM
