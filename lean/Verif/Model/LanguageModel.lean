import Verif.Model.TextScorer
import Verif.Model.OutputLayer
/-!
# The network as a language model: what text scoring computes with the network of theanolm/network/network.py

`Scorer` (theanolm/scoring/textscorer.py) and `evalNetwork` (theanolm/network) are put together here.
-/
namespace TheanoLM

section
variable {S : Type} [Add S] [Mul S] [Sub S] [Div S] [Zero S] [One S]

/-- textscorer.py:116-119, network.py:139-143, 236-237: the word IDs, class IDs and mask that are given to the network as one matrix. -/
def networkBatch (wordIds classIds mask : List (List Nat)) : List (List InputCell) :=
  (wordIds.zip (classIds.zip mask)).map fun rows =>
    (rows.1.zip (rows.2.1.zip rows.2.2)).map fun x => ⟨x.1, x.2.1, x.2.2 != 0⟩

/-- The probabilities in a position that the layer number `output` outputs. -/
def Entry.probs (output : Nat) (e : Entry S) : Option (List S) :=
  match e.outs[output]? with
  | some (.probs p) => some p
  | _ => none

/-- textscorer.py:92 `tensor.log(network.target_probs())`, network.py:457-469, at a time step of a sequence.  Softmax and hierarchical
softmax layers select the probability of the target class in the way of `softmaxTargets` and `hsoftmaxTarget`, which is the element of
the distribution (`C56_softmax_targets`, `C56_target`).  Simplified: the result is nan when the network cannot be evaluated, which raises
in Theano; the theorems are about networks that can be evaluated. -/
def targetLogprob (act : Act S) (opts : EvalOptions) (layers : List (Layer S)) (output : Nat) (log : S → Flt S)
    (wordIds classIds targetClassIds mask : List (List Nat)) (t s : Nat) : Flt S :=
  match evalNetwork act opts layers (networkBatch wordIds classIds mask) with
  | .error _ => .nan
  | .ok out =>
    match ((out[t]?).bind fun row => row[s]?).bind (Entry.probs output), (targetClassIds[t]?).bind fun row => row[s]? with
    | some probs, some classId =>
      match probs[classId]? with
      | some p => log p
      | none => .nan
    | _, _ => .nan

/-- textscorer.py:18-142 `__init__`, score.py:113-117: the scorer with a network.  The network is evaluated with `is_training` zero
(119).  `excludeUnk` is given both to the network and to the scorer. -/
def networkScorer (act : Act S) (log : S → Flt S) (cast : ℚ → S) (v : Vocab) (unkId : Nat) (layers : List (Layer S)) (output : Nat)
    (useShortlist excludeUnk : Bool) : Scorer S where
  vocab := v
  unkId := unkId
  net := targetLogprob act ⟨false, excludeUnk, fun _ _ _ => []⟩ layers output log
  log := fun q => log (cast q)
  exp := act.exp
  useShortlist := useShortlist
  excludeUnk := excludeUnk

end

end TheanoLM
