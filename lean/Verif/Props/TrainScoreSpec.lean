import Verif.Model.TrainingCost
import Verif.Model.ScoreModel
import Verif.Model.FilePerplexity
import Verif.Props.LanguageModelSpec
import Verif.Props.TrainerStateSpec
import Verif.Props.TrainerSpec
import Verif.Props.TrainVocabulary
import Verif.Props.ArchitectureSpec
import Verif.Model.TrainCommand
/-!
# Specification for C116: the perplexity that training reports and the perplexity that the score command reports
-/
namespace TheanoLM

/-- The score command with real numbers as parameters. -/
noncomputable def scoreReal (showNum : Flt ℝ → Str) (log : Nat → ℝ) (e : CreateEnv ℝ) (file : StateFile ℝ)
    (useShortlist excludeUnk : Bool) (logBase : Option Nat) (fuel : Nat) (text : Str) : Except Err (Option (Str × Option Err)) :=
  scoreModel realAct fltLog (fun q => (q : ℝ)) showNum log e file useShortlist excludeUnk logBase .noMarking "perplexity".toList fuel text

/-- Validation in training: the perplexity of the validation text is computed with the network whose layers are `layersOf x` when the
parameters of the network have the value `x`, in mini-batches of `batchSize` sentences. -/
structure Validates {X I J B : Type} (env : TrainEnv ℝ X I J B) (v : Vocab) (unkId : Nat) (layersOf : X → List (Created ℝ)) (output : Nat)
    (excludeUnk : Bool) (text : Str) (batchSize : Nat) : Prop where
  enabled : env.hasValidation = true
  perplexity : ∀ x p, env.perplexity x = .ok p → ∃ N, ∀ fuel, N ≤ fuel →
    (validationScorer realAct fltLog (fun q => (q : ℝ)) v unkId ((layersOf x).map Created.layer) output excludeUnk).filePerplexity
      [text] ⟨batchSize, none⟩ fuel = some (.ok (.fin p))

/-- The score command is run on the same computer as the train command: what has been selected as the default device is the same. -/
structure SameMachine {S : Type} (e e' : CreateEnv S) : Prop where
  device : e.defaultDevice = e'.defaultDevice
  parseInt : e.parseInt = e'.parseInt
  parseFloat : e.parseFloat = e'.parseFloat
  rateLimit : e.rateLimit = e'.rateLimit
  defaultRate : e.defaultRate = e'.defaultRate

/-- The train command has been run with validation data, possibly many times, and a model has been saved.  The vocabulary and the network
satisfy the restrictions of the other properties. -/
structure TrainedModel {X I J B : Type} (P : Parsers) (e : CreateEnv ℝ) (v : Vocab) (unkId : Nat) (cenv : CreateEnv ℝ) (a : Architecture)
    (net : CreatedNetwork ℝ) (env : TrainEnv ℝ X I J B) (t : Trainer ℝ X I J) (f : TrainFile ℝ X J) (excludeUnk : Bool) (text : Str)
    (sf : StateFile ℝ) (layers : List (Created ℝ)) : Prop where
  /-- the train command reads or creates a vocabulary, and writes it to the model file -/
  start : ∃ vocabulary format numClasses training numNoise weights sampling ws mf mf', SavedFile P mf ∧
    startTrain (S := ℝ) P vocabulary format numClasses training numNoise weights sampling mf = .ok (mf', .ok (v, ws)) ∧
    -- it creates a network and an optimizer
    ∃ method opt, TrainSetup cenv a net method opt ∧
    -- the state that was saved last is in the model file
    ∃ obj, ModelSaved cenv a net opt mf'.vocabulary sf (some obj) ∧ obj.layers = layers
  unk : v.wordToId unk = some unkId
  environment : vocabularyEnv e v = .ok cenv
  /-- the validation perplexities are those of the network -/
  validation : ∃ layersOf batchSize, Validates env v unkId layersOf net.output excludeUnk text batchSize ∧ 0 < batchSize ∧
    layers = layersOf f.params
  /-- training has been run for some time, and a model has been saved -/
  trained : TrainReachable env t
  file : t.file = some f
  /-- the restrictions on networks (C81), see also `C59` for bidirectional layers -/
  inputs : a.inputs.length ≤ 10
  lists : ∀ d ∈ a.inputs ++ a.layers, ListsAtMost 10 d
  prior : PriorFits cenv a
  connected : ∀ c ∈ net.layers, Connected net.layers c ∧ Placed c
  output : ∃ c, net.layers[net.output]? = some c ∧ OutputLayer c
  forward : ∀ c ∈ net.layers, c.layer.Forward
  /-- the restrictions on vocabularies (C111) -/
  nonneg : ∀ w, 0 ≤ probOf v w
  unkProb : probOf v unkId ≠ 0
  unigram : ∀ u, v.unigram = some u → ∀ x ∈ u, 0 ≤ x

end TheanoLM
