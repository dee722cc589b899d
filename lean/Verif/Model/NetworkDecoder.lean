import Verif.Model.LanguageModel
import Verif.Model.Decoder
import Verif.Model.RecurrentState
/-!
# The network and the vocabulary in lattice decoding

What theanolm/scoring/latticedecoder.py computes with the network of theanolm/network/network.py.  `Decoder` has abstract functions for
these.
-/
namespace TheanoLM

section
variable {S : Type} [Add S] [Mul S] [Sub S] [Div S] [Zero S] [One S]

/-- latticedecoder.py:629-653: the step function is evaluated for all tokens at once.  A token is given by its state, and the word and
class IDs of the last word of its history; the results are the outputs of the layers and the new state.  The state is limited to
`recurrent_state_size` of the network (650). -/
def stepTokens (act : Act S) (opts : EvalOptions) (layers : List (Layer S)) (tokens : List (RecState S × InputCell)) :
    Except Err (List (Entry S × RecState S)) :=
  match combineSequences (tokens.map Prod.fst) with                                           -- 634-635
  | .error e => .error e
  | .ok state =>
    match stepLayers act opts 0 state.vars 0 0 layers (tokens.map fun x => ⟨{ x.2 with mask := true }, []⟩) with  -- 639-642
    | .error e => .error e
    | .ok (row, outputState) =>
      mapE (fun index =>                                                                      -- 648-653
        match tokenState (networkStateSizes layers) outputState index, row[index]? with
        | .error e, _ => .error e
        | .ok _, none => .error .indexError
        | .ok st, some e => .ok (e, st)) (List.range tokens.length)

/-- latticedecoder.py:311-327: the step function and the initial state (367), for one token.  Simplified: when the network cannot be
evaluated, which raises in Theano, the score is zero and the state does not change; the theorems are about networks that can be
evaluated.  `log` is the logarithm of positive numbers. -/
def networkDecNet (act : Act S) (log : S → S) (layers : List (Layer S)) (output : Nat) (excludeUnk : Bool) : DecNet S (RecState S) where
  initial := RecState.reset ⟨networkStateSizes layers, 1, []⟩
  logprob := fun st word cls target =>
    match stepNetwork act ⟨false, excludeUnk, fun _ _ _ => []⟩ layers 0 st [⟨word, cls, true⟩] with
    | .ok (e :: _, _) =>
      match e.probs output with
      | some p => log (p.getD target 0)
      | none => 0
    | _ => 0
  next := fun st word cls =>
    match stepNetwork act ⟨false, excludeUnk, fun _ _ _ => []⟩ layers 0 st [⟨word, cls, true⟩] with
    | .ok (_, st') => st'
    | .error _ => st

/-- latticedecoder.py:300-309, 620-638: what the decoder uses from the vocabulary.  `log` is the logarithm of positive numbers: words with
zero probability are not modelled (the theorems assume that there are not any). -/
def networkDecVocab (log : S → S) (cast : ℚ → S) (v : Vocab) (sosId eosId unkId : Nat) (useShortlist : Bool) : DecVocab S where
  wordToId := v.wordToId
  inShortlist := fun i => decide (i < v.numShortlist)
  classId := fun i => v.classOf.getD i 0
  logMember := fun i => match v.classMembership i with | .ok r => log (cast r.2) | .error _ => 0
  oosLogprob := match useShortlist, v.oosProbs with                                           -- 300-305
    | true, some l => some fun i => match l[i]? with | some (some q) => log (cast q) | _ => 0
    | _, _ => none
  sos := sosId
  eos := eosId
  unk := unkId

end

end TheanoLM
