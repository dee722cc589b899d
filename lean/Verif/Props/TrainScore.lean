import Verif.Props.TrainScoreSpec
import Verif.Props.TrainCommand
import Verif.Props.TrainerState
import Verif.Props.NetworkState
import Verif.Props.PerplexityAgreement
/-!
# The perplexity that training reports is the perplexity that the score command reports: C116
-/
set_option linter.unusedSectionVars false
namespace TheanoLM

section
variable {P : Parsers} {v : Vocab}

theorem vocabularyEnv_ok (hv : Constructible P v) (e : CreateEnv ℝ) :
    ∃ unkId c, v.wordToId unk = some unkId ∧ v.classOf[unkId]? = some c ∧
      vocabularyEnv e v = .ok { e with numWords := v.numShortlist, numClasses := v.numClasses, unkClass := c } := by
  obtain ⟨unkId, h1, h2, -⟩ := C12_special P v hv unk (.inr (.inr rfl))
  have hlt : unkId < v.classOf.length := by simpa [Vocab.inShortlist, Vocab.numShortlist] using h1
  refine ⟨unkId, _, h2, List.getElem?_eq_getElem hlt, ?_⟩
  unfold vocabularyEnv
  rw [h2]
  simp only
  rw [List.getElem?_eq_getElem hlt]

variable {a : Architecture} {net : CreatedNetwork ℝ} {method : OptMethod} {opt : Params ℝ}

/-- A trained network is a network for the vocabulary. -/
theorem modelOf_trained {e cenv : CreateEnv ℝ} {layers : List (Created ℝ)} (hv : Constructible P v) (he : vocabularyEnv e v = .ok cenv)
    (hnet : createNetwork cenv a = .ok net) (hp : PriorFits cenv a)
    (hconn : ∀ c ∈ net.layers, Connected net.layers c ∧ Placed c)
    (hout : ∃ c, net.layers[net.output]? = some c ∧ OutputLayer c) (hs : SameNetwork net.layers layers) :
    ModelOf cenv a v layers net.output := by
  obtain ⟨unkId, cl, h1, h2, h3⟩ := vocabularyEnv_ok hv e
  rw [h3] at he
  cases he
  refine ⟨⟨net, hnet, rfl, hs, hconn⟩, hp, rfl, rfl, ?_, ?_⟩
  · intro i hi
    rw [h1] at hi
    cases hi
    exact h2
  · obtain ⟨c, hc, ho⟩ := hout
    obtain ⟨c', hc', _, hl⟩ := (hs.at net.output).2 c hc
    refine ⟨c', hc', ?_⟩
    rcases ho with ⟨b, u, hb⟩ | ⟨b, l1, l2, ws, bs, hb⟩
    · rw [hb] at hl
      cases hl' : c'.layer <;> rw [hl'] at hl <;> cases hl
      exact .inl ⟨_, _, hl'⟩
    · rw [hb] at hl
      cases hl' : c'.layer <;> rw [hl'] at hl <;> cases hl
      exact .inr ⟨_, _, _, _, _, hl'⟩

/-- The network and the vocabulary that are read from the model file are those that were trained. -/
theorem networkFromFile_saved {e e' cenv : CreateEnv ℝ} {vocab : Option VocabState} {sf : StateFile ℝ} {obj : TrainObjects ℝ}
    (hv : Constructible P v) (hvoc : vocabFromState vocab = .ok v) (he : vocabularyEnv e v = .ok cenv) (hm : SameMachine e e')
    (hs : TrainSetup cenv a net method opt) (hi : a.inputs.length ≤ 10) (hl : ∀ d ∈ a.inputs ++ a.layers, ListsAtMost 10 d)
    (hp : PriorFits cenv a) (hsaved : ModelSaved cenv a net opt vocab sf (some obj)) :
    networkFromFile e' sf = .ok (v, ⟨obj.layers, net.output⟩) := by
  obtain ⟨c1, _, c3⟩ := hsaved.content hs
  obtain ⟨ht, hf⟩ := c3 obj rfl
  obtain ⟨unkId, cl, h1, h2, h3⟩ := vocabularyEnv_ok hv e
  obtain ⟨unkId', cl', h1', h2', h3'⟩ := vocabularyEnv_ok hv { e' with priorBias := none }
  rw [h1] at h1'
  cases h1'
  rw [h2] at h2'
  cases h2'
  rw [h3] at he
  cases he
  unfold networkFromFile
  rw [c1, hvoc]
  simp only
  rw [h3']
  simp only
  rw [loadNetwork_content (env := { e with numWords := v.numShortlist, numClasses := v.numClasses, unkClass := cl })
    (env' := { e' with priorBias := none, numWords := v.numShortlist, numClasses := v.numClasses, unkClass := cl })
    ⟨rfl, rfl, rfl, hm.device, hm.parseInt, hm.parseFloat, hm.rateLimit, hm.defaultRate⟩ hs.valid hi hl hp
    (fun p hp => by cases hp) hs.network obj.layers ⟨sf.data, sf.arch⟩ ht.layers hf.arch
    (fun p hpm => hf.values p (List.mem_append_left _ hpm))]

variable {X I J B : Type} {e e' cenv : CreateEnv ℝ} {unkId : Nat} {env : TrainEnv ℝ X I J B} {t : Trainer ℝ X I J}
    {f : TrainFile ℝ X J} {excludeUnk : Bool} {text : Str} {sf : StateFile ℝ} {layers : List (Created ℝ)}

theorem TrainedModel.facts (h : TrainedModel P e v unkId cenv a net env t f excludeUnk text sf layers) :
    Constructible P v ∧ ModelOf cenv a v layers net.output ∧ (∀ c ∈ layers, c.layer.Forward) ∧ SameNetwork net.layers layers ∧
    (∀ e', SameMachine e e' → networkFromFile e' sf = .ok (v, ⟨layers, net.output⟩)) ∧
    ∃ p, finishTrain env t = .ok (some (.best p)) ∧ ∃ batchSize, 0 < batchSize ∧ ∃ N, ∀ fuel, N ≤ fuel →
      (validationScorer realAct fltLog (fun q => (q : ℝ)) v unkId (layers.map Created.layer) net.output excludeUnk).filePerplexity
        [text] ⟨batchSize, none⟩ fuel = some (.ok (.fin p)) := by
  obtain ⟨vocabulary, format, numClasses, training, numNoise, weights, sampling, ws, mf, mf', hmf, hstart, method, opt, hs, obj, hsaved,
    hobj⟩ := h.start
  obtain ⟨layersOf, batchSize, hval, hB, hlay⟩ := h.validation
  have hread : readVocabulary P vocabulary format numClasses training mf = .ok (v, mf') := by
    unfold startTrain at hstart
    split at hstart
    · cases hstart
    · rename_i v0 f0 h0
      split at hstart
      · cases hstart
      · cases hstart; exact h0
  obtain ⟨hv, _, _, _, hvoc, _⟩ := C90_resume P vocabulary format numClasses training mf mf' v hmf hread
  obtain ⟨p, _, _, _, _, _, g1, g2, _⟩ := C91_result env t h.trained hval.enabled f h.file
  obtain ⟨c1, _, c3⟩ := hsaved.content hs
  obtain ⟨hto', _⟩ := c3 obj rfl
  have hmodel := modelOf_trained hv h.environment hs.network h.prior h.connected h.output hto'.layers
  have hfw' : ∀ c ∈ obj.layers, c.layer.Forward := by
    intro c hc
    obtain ⟨k, hk⟩ := List.mem_iff_getElem?.mp hc
    obtain ⟨c0, h1, _, h2⟩ := (hto'.layers.at k).1 c hk
    exact h2.forward (h.forward c0 (List.mem_of_getElem? h1))
  subst hobj
  refine ⟨hv, hmodel, hfw', hto'.layers, fun e' hm => networkFromFile_saved hv hvoc h.environment hm hs h.inputs h.lists h.prior hsaved,
    p, g1, batchSize, hB, ?_⟩
  rw [hlay]
  exact hval.perplexity f.params p g2

theorem scoreReal_saved (h : TrainedModel P e v unkId cenv a net env t f excludeUnk text sf layers) (hm : SameMachine e e')
    (showNum : Flt ℝ → Str) (log : Nat → ℝ) (us ex : Bool) (base : Option Nat) (fuel : Nat) :
    scoreReal showNum log e' sf us ex base fuel text = .ok (scoreCommand (scorerOf v unkId layers net.output us ex) showNum log base
      .noMarking "perplexity".toList fuel text) := by
  unfold scoreReal scoreModel
  rw [h.facts.2.2.2.2.1 e' hm]
  simp only
  rw [h.unk]
  rfl

/-- C116 (partial: without the option to exclude `<unk>`, see `C116_excluded`; without a limit on the length of the sequences in
training; no bidirectional layers; and the restrictions of C81 and C106 on the architecture).  After training with validation, the
command prints a perplexity.  When the score command is then given the model file and the validation text, with the option to use a
shortlist, it reports the same perplexity. -/
theorem C116_partial (h : TrainedModel P e v unkId cenv a net env t f false text sf layers) (hm : SameMachine e e')
    (showNum : Flt ℝ → Str) (hnl : ∀ x, '\n' ∉ showNum x) (log : Nat → ℝ) (base : Option Nat) :
    ∃ p, finishTrain env t = .ok (some (.best p)) ∧
      ∃ N out, (∀ fuel, N ≤ fuel → scoreReal showNum log e' sf true false base fuel text = .ok (some (out, none))) ∧
        (fileLines out).getLast? = some ("Perplexity: ".toList ++ showNum (.fin p) ++ "\n".toList) := by
  obtain ⟨hv, hmodel, hfw, _, _, p, g1, batchSize, hB, hper⟩ := h.facts
  obtain ⟨N, out, r1, r2⟩ := C111_network hv h.unk hmodel hfw true false (fun h => by cases h) h.nonneg h.unkProb h.unigram showNum hnl
    log base text batchSize hB _ hper
  refine ⟨p, g1, N, out, fun fuel hfuel => ?_, r2⟩
  rw [scoreReal_saved h hm]
  exact congrArg _ (r1 fuel hfuel)

end

end TheanoLM
