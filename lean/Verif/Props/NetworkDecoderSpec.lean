import Verif.Model.NetworkDecoder
import Verif.Props.LanguageModelSpec
import Verif.Props.DecoderSpec
/-!
# Specifications for lattice decoding with a network
-/
namespace TheanoLM

/-- A recurrent state of one sequence: the variables have the shapes that the network uses. -/
def SingleState {S : Type} (layers : List (Layer S)) (st : RecState S) : Prop :=
  st.sizes = networkStateSizes layers ∧ st.numSequences = 1 ∧
    List.Forall₂ (fun (x : Arr3 S) size => x.d0 = 1 ∧ x.d1 = 1 ∧ x.d2 = size ∧ ∃ u, x.data = [[u]]) st.vars (networkStateSizes layers)

/-- The decoder uses the network and its vocabulary. -/
structure Decoder.Uses (D : Decoder ℝ (RecState ℝ)) (v : Vocab) (unkId : Nat) (layers : List (Created ℝ)) (output : Nat)
    (useShortlist excludeUnk : Bool) : Prop where
  net : D.net = networkDecNet realAct Real.log (layers.map Created.layer) output excludeUnk
  vocab : ∃ sosId eosId, v.wordToId sos = some sosId ∧ v.wordToId eos = some eosId ∧
    D.vocab = networkDecVocab Real.log (fun q => (q : ℝ)) v sosId eosId unkId useShortlist

/-- The ID of a word of a history in the text to be scored: words outside the vocabulary are `<unk>`. -/
def textId (unkId : Nat) : HistWord → Nat
  | .inl i => i
  | .inr _ => unkId

/-- The word has positive class membership probability, and if the probability of `<unk>` is distributed, gets a positive fraction. -/
def PositiveWord (v : Vocab) (useShortlist : Bool) (i : Nat) : Prop :=
  i < v.numWords ∧ 0 < (memberOf v i).2 ∧
    (useShortlist = true → ∀ r q, v.oosProbs = some r → r[i]? = some q → ∃ y, q = some y ∧ 0 < y)

end TheanoLM
