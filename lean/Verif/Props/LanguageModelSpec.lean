import Verif.Model.LanguageModel
import Verif.Props.TextScorerSpec
import Verif.Props.NetworkCreate
import Verif.Props.NetworkStateSpec
import Verif.Props.NetworkSpec
import Mathlib.Analysis.SpecialFunctions.Log.Basic
/-!
# Specification for C96: the network as a language model
-/
namespace TheanoLM

/-- The logarithm of floating point numbers, without rounding. -/
noncomputable def fltLog (x : ℝ) : Flt ℝ :=
  if x = 0 then .negInf else if 0 < x then .fin (Real.log x) else .nan

section
variable {S : Type} [Add S] [Mul S] [Sub S] [Div S] [Zero S] [One S] [Min S]

/-- The layer can be the output layer: it is a softmax or a hierarchical softmax layer. -/
def OutputLayer (c : Created S) : Prop := (∃ b unk, c.layer = .softmax b unk) ∨ ∃ b l1 l2 ws bs, c.layer = .hsoftmax b l1 l2 ws bs

/-- The output layer outputs a normalized distribution: it is a softmax layer, or a hierarchical softmax layer whose level sizes
multiply to the number of classes (see `C56`). -/
def NormalizedOutput (c : Created S) : Prop :=
  (∃ b unk, c.layer = .softmax b unk) ∨ ∃ b l1 l2 ws bs, c.layer = .hsoftmax b l1 l2 ws bs ∧ l1 * l2 = c.size

/-- The output layer of the network outputs a normalized distribution. -/
def Normalized (layers : List (Created S)) (output : Nat) : Prop := ∀ c, layers[output]? = some c → NormalizedOutput c

/-- A network for the words and classes of the vocabulary `v`: it has been created from a description, its layers can be connected in
the way they are (`C80_evaluates_iff`), and then its parameters have been given any values of the same shapes, by training it or by
reading them from a file. -/
structure ModelOf (env : CreateEnv S) (a : Architecture) (v : Vocab) (layers : List (Created S)) (output : Nat) : Prop where
  created : ∃ net, createNetwork env a = .ok net ∧ net.output = output ∧ SameNetwork net.layers layers ∧
    ∀ c ∈ net.layers, Connected net.layers c ∧ Placed c
  prior : PriorFits env a
  words : env.numWords = v.numShortlist
  classes : env.numClasses = v.numClasses
  unkClass : ∀ i, v.wordToId unk = some i → v.classOf[i]? = some env.unkClass
  output : ∃ c, layers[output]? = some c ∧ OutputLayer c

end

/-- The scorer that the score command creates of a network with real numbers as parameters. -/
noncomputable def scorerOf (v : Vocab) (unkId : Nat) (layers : List (Created ℝ)) (output : Nat) (useShortlist excludeUnk : Bool) : Scorer ℝ :=
  networkScorer realAct fltLog (fun q => (q : ℝ)) v unkId (layers.map Created.layer) output useShortlist excludeUnk

end TheanoLM
