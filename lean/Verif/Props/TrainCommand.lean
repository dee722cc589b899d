import Verif.Lemmas.TrainerMeasured
import Verif.Props.TrainVocabulary
import Verif.Props.Trainer
/-!
# The train command: its result (C91) and its arguments (C92)
-/
set_option linter.unusedSectionVars false
namespace TheanoLM

section
variable {S X I J B : Type} [Field S] [LinearOrder S]

theorem lastSaved_split {l : List (TrainEvent S X J)} {f : TrainFile S X J} (h : lastSaved l = some f) :
    ∃ l1 l2, l = l1 ++ .saved f :: l2 ∧ ∀ f', .saved f' ∉ l1 := by
  induction l with
  | nil => cases h
  | cons e l ih =>
    cases e with
    | saved g => cases h; exact ⟨[], l, rfl, by simp⟩
    | validated u s c =>
      obtain ⟨l1, l2, h1, h2⟩ := ih h
      exact ⟨.validated u s c :: l1, l2, by rw [h1]; rfl, by simp [h2]⟩
    | annealed o n =>
      obtain ⟨l1, l2, h1, h2⟩ := ih h
      exact ⟨.annealed o n :: l1, l2, by rw [h1]; rfl, by simp [h2]⟩
    | epochStarted n =>
      obtain ⟨l1, l2, h1, h2⟩ := ih h
      exact ⟨.epochStarted n :: l1, l2, by rw [h1]; rfl, by simp [h2]⟩
    | initialized =>
      obtain ⟨l1, l2, h1, h2⟩ := ih h
      exact ⟨.initialized :: l1, l2, by rw [h1]; rfl, by simp [h2]⟩

theorem lastSaved_none {l : List (TrainEvent S X J)} (h : lastSaved l = none) : ∀ f, .saved f ∉ l := by
  induction l with
  | nil => simp
  | cons e l ih =>
    cases e with
    | saved g => cases h
    | validated u s c => have := ih h; simp [this]
    | annealed o n => have := ih h; simp [this]
    | epochStarted n => have := ih h; simp [this]
    | initialized => have := ih h; simp [this]

/-! ## C91 -/

/-- C91: when training with validation data has ended, the command does not fail any more.  If a model has been saved, the
command prints the validation perplexity of the model in the file.  It is one of the perplexities that were measured in
the validation because of which the model was saved, the cost of the model is the statistic of those perplexities, and
every cost measured after that is at least 0.999 times it. -/
theorem C91_result (env : TrainEnv S X I J B) (t : Trainer S X I J) (h : TrainReachable env t)
    (hv : env.hasValidation = true) (f : TrainFile S X J) (hf : t.file = some f) :
    ∃ p l1 u s c l2, finishTrain env t = .ok (some (.best p)) ∧ env.perplexity f.params = .ok p ∧
      t.log = l1 ++ .saved f :: .validated u s c :: l2 ∧ (∀ f', .saved f' ∉ l1) ∧ p ∈ s ∧
      f.cost = some c ∧ c = env.statistic.statisticFunction s ∧
      ∀ u' s' c', .validated u' s' c' ∈ l1 → 999 / 1000 * c ≤ c' := by
  have hl := C43_file env t h
  rw [hf] at hl
  obtain ⟨l1, l2, h1, h2⟩ := lastSaved_split hl.symm
  obtain ⟨u, s, c, l3, p, rfl, hp, hx⟩ := (reachable_measuredInv h hv).log l1 f l2 h1
  obtain ⟨u', s', c', l3', he, hc, _⟩ := C43_saved env t h hv l1 _ f h1
  cases he
  obtain ⟨_, hstat, _⟩ := (history_split (reachable_inv h).history (l1 ++ [.saved f]) (.validated u s c) l3
    (by rw [h1, List.append_assoc]; rfl)).validated u s c rfl
  refine ⟨p, l1, u, s, c, l3, ?_, hx, h1, h2, hp, hc, hstat, ?_⟩
  · unfold finishTrain
    rw [hf]
    simp only [hv, if_true, hx]
  · intro u' s' c' hm
    obtain ⟨a, b, rfl⟩ := List.append_of_mem hm
    obtain ⟨f2, b2, g1, g2, g3⟩ := C43_since env t h a (b ++ .saved f :: .validated u s c :: l3) u' s' c'
      (by rw [h1, List.append_assoc]; rfl) (fun f' hf' => h2 f' (by simp [hf']))
    rw [hf] at g1
    cases g1
    rw [hc] at g2
    cases g2
    exact g3

/-- C91: if no model has been saved, the command says so; that is the case exactly when the file contains no model. -/
theorem C91_not_trained (env : TrainEnv S X I J B) (t : Trainer S X I J) (h : TrainReachable env t) :
    (finishTrain env t = .ok (some .notTrained) ↔ t.file = none) ∧ (t.file = none ↔ ∀ f, .saved f ∉ t.log) := by
  have hl := C43_file env t h
  constructor
  · unfold finishTrain
    cases hf : t.file with
    | none => simp
    | some f =>
      simp only
      split
      · split <;> simp
      · simp
  · constructor
    · intro hn
      exact lastSaved_none (by rw [← hl, hn])
    · intro hn
      cases hf : t.file with
      | none => rfl
      | some f =>
        rw [hf] at hl
        obtain ⟨l1, l2, h1, _⟩ := lastSaved_split hl.symm
        exact absurd (by rw [h1]; simp) (hn f)

/-- C91: without validation data nothing is printed about the model. -/
theorem C91_without_validation (env : TrainEnv S X I J B) (t : Trainer S X I J) (hv : env.hasValidation = false)
    (f : TrainFile S X J) (hf : t.file = some f) : finishTrain env t = .ok none := by
  unfold finishTrain
  rw [hf]
  simp [hv]

end

/-- In the example of C43, the second saved model has perplexity 60. -/
example : finishTrain (exampleTrainEnv examplePerplexity true 0 100 (.noImprovement 0))
    ((Trainer.step (exampleTrainEnv examplePerplexity true 0 100 (.noImprovement 0)))^[16] (exampleTrainer
      (exampleTrainEnv examplePerplexity true 0 100 (.noImprovement 0)))) = .ok (some (.best 60)) := by
  decide +kernel

/-! ## C92 -/

section
variable {S : Type} [One S]

theorem trainWeights_loop (ws : List S) (k : Nat) (a : List S) (h : k + ws.length ≤ a.length) :
    ((ws.zipIdx k).foldl (fun a p => a.set p.2 p.1) a).length = a.length ∧
    ∀ i, ((ws.zipIdx k).foldl (fun a p => a.set p.2 p.1) a)[i]? =
      if i < k then a[i]? else match ws[i - k]? with | some w => some w | none => a[i]? := by
  induction ws generalizing k a with
  | nil => exact ⟨rfl, fun i => by simp⟩
  | cons w ws ih =>
    rw [List.zipIdx_cons, List.foldl_cons]
    simp only [List.length_cons] at h
    obtain ⟨h1, h2⟩ := ih (k + 1) (a.set k w) (by rw [List.length_set]; omega)
    refine ⟨by rw [h1, List.length_set], ?_⟩
    intro i
    rw [h2]
    rcases lt_trichotomy i k with hi | hi | hi
    · rw [if_pos (by omega), if_pos hi, List.getElem?_set_ne (by omega)]
    · subst hi
      rw [if_pos (by omega), if_neg (by omega), Nat.sub_self, List.getElem?_set_self (by omega)]
      rfl
    · rw [if_neg (by omega), if_neg (by omega)]
      obtain ⟨j, rfl⟩ : ∃ j, i = k + 1 + j := ⟨i - (k + 1), by omega⟩
      have e1 : k + 1 + j - (k + 1) = j := by omega
      have e2 : k + 1 + j - k = j + 1 := by omega
      rw [e1, e2, List.getElem?_cons_succ, List.getElem?_set_ne (by omega)]

/-- C92: the arguments are accepted exactly when there are at most as many noise samples as classes, and at most as many
weights and sampling coefficients as training files.  The files without a weight have weight one. -/
theorem C92_arguments (numNoiseSamples numClasses numFiles : Nat) (weights sampling ws : List S) :
    checkArguments numNoiseSamples numClasses numFiles weights sampling = .ok ws ↔
    (numNoiseSamples ≤ numClasses ∧ weights.length ≤ numFiles ∧ sampling.length ≤ numFiles) ∧ ws.length = numFiles ∧
      ∀ i < numFiles, ws[i]? = some (weights.getD i 1) := by
  have key : weights.length ≤ numFiles → (trainWeights numFiles weights).length = numFiles ∧
      ∀ i < numFiles, (trainWeights numFiles weights)[i]? = some (weights.getD i 1) := by
    intro h
    obtain ⟨h1, h2⟩ := trainWeights_loop weights 0 (List.replicate numFiles 1) (by simpa using h)
    refine ⟨by unfold trainWeights; rw [h1]; simp, ?_⟩
    intro i hi
    have := h2 i
    rw [if_neg (by omega), Nat.sub_zero] at this
    unfold trainWeights
    rw [this]
    cases hw : weights[i]? with
    | none => simp [List.getD, hw, hi]
    | some w => simp [List.getD, hw]
  unfold checkArguments
  split
  · rename_i h
    constructor
    · intro h; cases h
    · rintro ⟨⟨h1, _⟩, _⟩; omega
  · split
    · rename_i h
      constructor
      · intro h; cases h
      · rintro ⟨⟨_, h1, _⟩, _⟩; omega
    · split
      · rename_i h
        constructor
        · intro h; cases h
        · rintro ⟨⟨_, _, h1⟩, _⟩; omega
      · constructor
        · intro h
          cases h
          exact ⟨⟨by omega, by omega, by omega⟩, key (by omega)⟩
        · rintro ⟨⟨_, h1, _⟩, h2, h3⟩
          obtain ⟨k1, k2⟩ := key h1
          congr 1
          apply List.ext_getElem?
          intro i
          by_cases hi : i < numFiles
          · rw [k2 i hi, h3 i hi]
          · rw [List.getElem?_eq_none (by omega), List.getElem?_eq_none (by omega)]

/-- C92, partial: when the arguments are not accepted, the model file afterwards is the same as if training had started
with accepted arguments: it contains the vocabulary, which later runs use.  Missing: the file is not left as it was. -/
theorem C92_rejected_partial (P : Parsers) (vocabulary : Option (List Str)) (format : VocFormat) (numClasses : Option Nat)
    (training : List (List Str)) (numNoiseSamples : Nat) (weights sampling : List S) (f f' : ModelFile)
    (m : TrainMessage S) (hf : SavedFile P f)
    (h : startTrain P vocabulary format numClasses training numNoiseSamples weights sampling f = .ok (f', .error m)) :
    ∃ v, readVocabulary P vocabulary format numClasses training f = .ok (v, f') ∧
      (m = .manyNoiseSamples ∧ v.numClasses < numNoiseSamples ∨ m = .manyWeights ∧ training.length < weights.length ∨
        m = .manySampling ∧ training.length < sampling.length) ∧
      ∀ vocabulary' format' numClasses' training',
        readVocabulary P vocabulary' format' numClasses' training' f' = .ok (v, f') := by
  unfold startTrain at h
  split at h
  · cases h
  · rename_i v f1 hr
    split at h
    · rename_i m' hm
      cases h
      refine ⟨v, hr, ?_, (C90_resume P vocabulary format numClasses training f f' v hf hr).2.2.2.2.2⟩
      unfold checkArguments at hm
      split at hm
      · cases hm; exact .inl ⟨rfl, by assumption⟩
      · split at hm
        · cases hm; exact .inr (.inl ⟨rfl, by assumption⟩)
        · split at hm
          · cases hm; exact .inr (.inr ⟨rfl, by assumption⟩)
          · cases hm
    · cases h

end

/-- C92 is violated: a run whose arguments are rejected leaves its vocabulary in the model file, and a correct run after it,
with another vocabulary, uses the vocabulary of the rejected run. -/
theorem C92_violated : ∃ (f' : ModelFile) (v : Vocab),
    startTrain (S := ℚ) exParsers none .words none exTraining 1 [1, 1, 1] [] ⟨none, false⟩ = .ok (f', .error .manyWeights) ∧
    startTrain (S := ℚ) exParsers (some exVocabLines) .classes none exTraining 1 [1, 1] [] f' = .ok (f', .ok (v, [1, 1])) ∧
    ∀ v' f'', startTrain (S := ℚ) exParsers (some exVocabLines) .classes none exTraining 1 [1, 1] [] ⟨none, false⟩ =
      .ok (f'', .ok (v', [1, 1])) → v'.idToWord ≠ v.idToWord := by
  obtain ⟨⟨v, f'⟩, h1, h2, h3⟩ : ∃ r, readVocabulary exParsers none .words none exTraining ⟨none, false⟩ = .ok r ∧
      r.1.idToWord = ["c".toList, "d".toList, "a".toList, "b".toList, sos, eos, unk] ∧ 1 ≤ r.1.numClasses := by
    decide +kernel
  obtain ⟨⟨v0, f0⟩, g1, g2⟩ : ∃ r, readVocabulary exParsers (some exVocabLines) .classes none exTraining ⟨none, false⟩ = .ok r ∧
      r.1.idToWord = ["b".toList, "a".toList, "c".toList, sos, eos, unk, "d".toList] := by
    decide +kernel
  have hs : SavedFile exParsers ⟨none, false⟩ := fun st h => by cases h
  have hr := (C90_resume exParsers none .words none exTraining _ f' v hs h1).2.2.2.2.2
  have hlen : exTraining.length = 2 := by decide
  refine ⟨f', v, ?_, ?_, ?_⟩
  · unfold startTrain
    rw [h1]
    simp only [checkArguments, hlen]
    rw [if_neg (by simp only at h3; omega)]
    rfl
  · unfold startTrain
    rw [hr]
    simp only [checkArguments, hlen]
    rw [if_neg (by simp only at h3; omega)]
    rfl
  · intro v' f'' h
    unfold startTrain at h
    rw [g1] at h
    simp only at h
    split at h
    · cases h
    · cases h
      rw [h2]
      simp only at g2
      rw [g2]
      decide

end TheanoLM
