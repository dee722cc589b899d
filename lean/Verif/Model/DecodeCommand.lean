import Verif.Model.Decoder
/-!
# Model of the decoding options of theanolm/commands/decode.py and of `LatticeDecoder.__init__`
-/
namespace TheanoLM

/-- A value in the dictionary of decoding options: a floating-point number, an integer, or a truth value; or `None`. -/
inductive OptVal (S : Type) where
  | none
  | float (x : S)
  | int (n : Nat)
  | bool (b : Bool)
  deriving DecidableEq

/-- The command line arguments that affect decoding (commands/decode.py:62-145).  Negative integers are not
modelled. -/
structure DecodeArgs (S : Type) where
  nnlmWeight : S
  lmScale : Option S
  wiPenalty : Option S
  logBase : Option Nat
  unkPenalty : Option S
  shortlist : Bool
  unkFromLattice : Bool
  linear : Bool
  maxTokens : Option Nat
  beam : Option S
  recombinationOrder : Option Nat
  pruneRelative : Option Nat
  absMinMaxTokens : S
  absMinBeam : S

variable {S St : Type}

def optFloat : Option S → OptVal S
  | none => .none
  | some x => .float x

def optInt : Option Nat → OptVal S
  | none => .none
  | some n => .int n

section
variable [Field S] [LinearOrder S]

/-- commands/decode.py:200-225: the dictionary of decoding options; `log` is the natural logarithm. -/
def decodingOptions (log : Nat → S) (args : DecodeArgs S) : List (String × OptVal S) :=
  let logScale := match args.logBase with                                               -- 200
    | none => 1
    | some b => log b
  [("nnlm_weight", .float args.nnlmWeight),                                             -- 211-225
   ("lm_scale", optFloat args.lmScale),
   ("wi_penalty", optFloat (args.wiPenalty.map (fun x => x * logScale))),               -- 207-210
   ("unk_penalty", optFloat args.unkPenalty),
   ("use_shortlist", .bool args.shortlist),
   ("unk_from_lattice", .bool args.unkFromLattice),
   ("linear_interpolation", .bool args.linear),
   ("max_tokens_per_node", optInt args.maxTokens),
   ("beam", optFloat args.beam),
   ("recombination_order", optInt args.recombinationOrder),
   ("prune_relative", optInt args.pruneRelative),
   ("abs_min_max_tokens", .float args.absMinMaxTokens),
   ("abs_min_beam", .float args.absMinBeam)]

/-- `options[key]` -/
def optGet (options : List (String × OptVal S)) (key : String) : Except Err (OptVal S) :=
  match options.find? (fun e => e.1 == key) with
  | none => .error .keyError
  | some e => .ok e.2

/-- `options.get(key, default)` -/
def optGetD (options : List (String × OptVal S)) (key : String) (default : OptVal S) : OptVal S :=
  match options.find? (fun e => e.1 == key) with
  | none => default
  | some e => e.2

/-- The value is used as a number that may be missing. -/
def asFloat : OptVal S → Except Err (Option S)
  | .none => .ok none
  | .float x => .ok (some x)
  | .int n => .ok (some (n : S))
  | .bool _ => .error .typeError

/-- The value is used as an integer that may be missing. -/
def asInt : OptVal S → Except Err (Option Nat)
  | .none => .ok none
  | .int n => .ok (some n)
  | .float _ => .error .typeError
  | .bool _ => .error .typeError

/-- The value is used as a condition. -/
def asBool : OptVal S → Bool
  | .none => false
  | .float x => decide (x ≠ 0)
  | .int n => decide (n ≠ 0)
  | .bool b => b

/-- The value is used as a number. -/
def asNumber (v : OptVal S) : Except Err S :=
  match asFloat v with
  | .error e => .error e
  | .ok none => .error .typeError
  | .ok (some x) => .ok x

/-- latticedecoder.py:281-305 `LatticeDecoder.__init__`.  `V` is the vocabulary with the out-of-shortlist log
probabilities, if it has unigram probabilities.  A value of a wrong type is a type error; in the code it is raised when
the value is used. -/
def decoderInit (V : DecVocab S) (net : DecNet S St) (lin : S → S → S → S) (options : List (String × OptVal S)) :
    Except Err (Decoder S St) := do
  let nnlmWeight ← asNumber (← optGet options "nnlm_weight")                            -- 283
  let lmScale ← asFloat (← optGet options "lm_scale")
  let wiPenalty ← asFloat (← optGet options "wi_penalty")
  let unkPenalty ← asFloat (← optGet options "unk_penalty")
  let unkFromLattice ← optGet options "unk_from_lattice"
  let linear ← optGet options "linear_interpolation"
  let maxTokens ← asInt (← optGet options "max_tokens_per_node")
  let beam ← asFloat (← optGet options "beam")                                          -- 290-292
  let recombinationOrder ← asInt (← optGet options "recombination_order")
  let pruneExtraLimit ← asInt (optGetD options "prune_extra_limit" .none)               -- 294
  let absMinBeam := optGetD options "abs_min_beam" (.int 0)                             -- 295
  let absMinMaxTokens := optGetD options "abs_min_max_tokens" (.int 0)                  -- 296
  let useShortlist ← optGet options "use_shortlist"
  let vocab := if asBool useShortlist then V else { V with oosLogprob := none }         -- 300-305
  match pruneExtraLimit with
  | none =>                                                                             -- 297-298
    .ok ⟨vocab, net, lin, nnlmWeight, lmScale, wiPenalty, unkPenalty, asBool unkFromLattice, asBool linear,
      maxTokens, beam, recombinationOrder, none, 0, 0⟩
  | some limit =>
    match asNumber absMinBeam, asInt absMinMaxTokens with
    | .ok minBeam, .ok (some minTokens) =>
      .ok ⟨vocab, net, lin, nnlmWeight, lmScale, wiPenalty, unkPenalty, asBool unkFromLattice, asBool linear,
        maxTokens, beam, recombinationOrder, some limit, minBeam, minTokens⟩
    | _, _ => .error .typeError

/-- commands/decode.py:231, 245: the tokens that decoding a lattice results in. -/
def decodeWith (V : DecVocab S) (net : DecNet S St) (lin : S → S → S → S) (log : Nat → S) (args : DecodeArgs S)
    (L : Lattice S) : Except Err (List (Token S St) × List (Recomb S St)) :=
  match decoderInit V net lin (decodingOptions log args) with
  | .error e => .error e
  | .ok D => decode D L

end
end TheanoLM
