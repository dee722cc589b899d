import Verif.Model.Lattice
import Mathlib.Algebra.Order.Field.Basic
import Mathlib.Data.List.Sort
/-!
# Model of theanolm/scoring/latticedecoder.py

Log probabilities are elements of an ordered field `S`; infinite values and rounding are not modelled.  The neural
network is given by the two functions that the step function of the decoder computes for one token; the tokens of a
batch do not affect each other (`C97_tokens`).
-/
namespace TheanoLM

/-- A word in the history of a token: a word ID, or the text of a word that is not in the vocabulary. -/
abbrev HistWord := Nat ⊕ Str

/-- What the decoder uses from the vocabulary: `word_to_id`, `in_shortlist()`, `word_id_to_class_id`, the logarithm of
the membership probability returned by `get_class_memberships()`, and `_oos_logprobs` (latticedecoder.py:300-309). -/
structure DecVocab (S : Type) where
  wordToId : Str → Option Nat
  inShortlist : Nat → Bool
  classId : Nat → Nat
  logMember : Nat → S
  oosLogprob : Option (Nat → S)
  sos : Nat
  eos : Nat
  unk : Nat

/-- The initial recurrent state and the step function (latticedecoder.py:311-327): the log probability of a target
class, given the state, the input word and its class, and the next state. -/
structure DecNet (S St : Type) where
  initial : St
  logprob : St → Nat → Nat → Nat → S
  next : St → Nat → Nat → St

/-- The attributes of `LatticeDecoder`; `lin` is the function `interpolate_linear`.  The number of tokens and the
orders are not negative. -/
structure Decoder (S St : Type) where
  vocab : DecVocab S
  net : DecNet S St
  lin : S → S → S → S
  nnlmWeight : S
  lmScale : Option S
  wiPenalty : Option S
  unkPenalty : Option S
  unkFromLattice : Bool
  linear : Bool
  maxTokens : Option Nat
  beam : Option S
  recombinationOrder : Option Nat
  pruneExtraLimit : Option Nat
  absMinBeam : S
  absMinMaxTokens : Nat

/-- latticedecoder.py:22-74 `Token`.  `hash` is the part of the history whose hash is computed: different histories are
assumed to have different hashes. -/
structure Token (S St : Type) where
  history : List HistWord
  state : St
  ac : S
  latLm : S
  nnLm : S
  hash : List HistWord
  graph : S
  total : S
  deriving DecidableEq

/-- An element of `recomb_tokens`. -/
abbrev Recomb (S St : Type) := Token S St × List HistWord × S

variable {S St : Type}

/-- latticedecoder.py:108-112 `recompute_hash`: `history[-order:]` is the whole history if the order is zero. -/
def limitedHistory (order : Option Nat) (history : List HistWord) : List HistWord :=
  match order with
  | none => history
  | some 0 => history
  | some (n + 1) => history.drop (history.length - (n + 1))

section Model
variable [Field S] [LinearOrder S]

/-- backend/probfunctions.py:58-89 `interpolate_loglinear`. -/
def interpolateLoglinear (logprob1 logprob2 prior1 prior2 : S) : S :=
  let result := if prior1 ≠ 0 then 0 + prior1 * logprob1 else 0
  if prior2 ≠ 0 then result + prior2 * logprob2 else result

/-- latticedecoder.py:141-151: `graph_logprob` -/
def graphLogprob (D : Decoder S St) (lmScale wiPenalty nnLm latLm : S) (length : Nat) : S :=
  let lm := if D.linear then D.lin nnLm latLm D.nnlmWeight                              -- 141-144
    else interpolateLoglinear nnLm latLm D.nnlmWeight (1 - D.nnlmWeight)                -- 145-148
  lm * lmScale + wiPenalty * ((length : S) - 1)                                         -- 150-151

/-- A token whose hash and total are computed (latticedecoder.py:99-153). -/
def mkToken (D : Decoder S St) (lmScale wiPenalty : S) (history : List HistWord) (state : St) (ac latLm nnLm : S) :
    Token S St :=
  let graph := graphLogprob D lmScale wiPenalty nnLm latLm history.length
  ⟨history, state, ac, latLm, nnLm, limitedHistory D.recombinationOrder history, graph, ac + graph⟩

/-- latticedecoder.py:620-627 `limit_to_shortlist`. -/
def limitToShortlist (V : DecVocab S) (w : HistWord) : Nat :=
  match w with
  | .inl i => if V.inShortlist i then i else V.unk
  | .inr _ => V.unk

/-- latticedecoder.py:685-700 `_handle_unk_logprob`. -/
def handleUnkLogprob (V : DecVocab S) (w : HistWord) (networkLogprob : S) (oovLogprob : Option S) : S :=
  match V.oosLogprob with
  | some oos =>                                                                         -- 688
    match w with
    | .inl i => networkLogprob + oos i                                                  -- 689-690
    | .inr _ => oovLogprob.getD networkLogprob                                          -- 691-694, 700
  | none =>
    match w with
    | .inl i => if V.inShortlist i then networkLogprob else oovLogprob.getD networkLogprob -- 695-700
    | .inr _ => oovLogprob.getD networkLogprob

/-- latticedecoder.py:629-657 `_append_word`, for one token: the new state and the NNLM log probability that is
added.  The membership probability is the one of the input word. -/
def appendWord (D : Decoder S St) (state : St) (prev target : HistWord) (oovLogprob : Option S) : St × S :=
  let input := limitToShortlist D.vocab prev                                            -- 629-630
  let inputClass := D.vocab.classId input                                               -- 632-633
  let targetClass := D.vocab.classId (limitToShortlist D.vocab target)                  -- 636-638
  let logprob := D.net.logprob state input inputClass targetClass + D.vocab.logMember input -- 639-645
  (D.net.next state input inputClass, handleUnkLogprob D.vocab target logprob oovLogprob)

/-- latticedecoder.py:454-457 -/
def histWord (V : DecVocab S) (w : Str) : HistWord :=
  match V.wordToId w with
  | some i => .inl i
  | none => .inr w

/-- The last word of the history: `token.history[-1]`; a history is never empty. -/
def lastWord (D : Decoder S St) (history : List HistWord) : HistWord := history.getLast?.getD (.inl D.vocab.sos)

/-- latticedecoder.py:458-463: the score given for unknown words. -/
def oovLogprob (D : Decoder S St) (k : Link S) : Option S := if D.unkFromLattice then k.lm else D.unkPenalty

/-- latticedecoder.py:442-468, `_propagate` of one token to a link. -/
def propagateLink (D : Decoder S St) (lmScale wiPenalty : S) (k : Link S) (t : Token S St) : Token S St :=
  let ac := t.ac + k.ac.getD 0                                                          -- 448-449
  let latLm := t.latLm + k.lm.getD 0                                                    -- 450-451
  match k.word with
  | none => mkToken D lmScale wiPenalty t.history t.state ac latLm t.nnLm               -- 453
  | some w =>
    let word := histWord D.vocab w                                                      -- 454-457
    let r := appendWord D t.state (lastWord D t.history) word (oovLogprob D k)          -- 458-463
    mkToken D lmScale wiPenalty (t.history ++ [word]) r.1 ac latLm (t.nnLm + r.2)

/-- latticedecoder.py:444-445, 465-468, `_propagate` of one token to the end of sentence. -/
def propagateEnd (D : Decoder S St) (lmScale wiPenalty : S) (t : Token S St) : Token S St :=
  let r := appendWord D t.state (lastWord D t.history) (.inl D.vocab.eos) none
  mkToken D lmScale wiPenalty (t.history ++ [.inl D.vocab.eos]) r.1 t.ac t.latLm (t.nnLm + r.2)

/-- latticedecoder.py:469-472: `best_logprob` of the end node. -/
def updateBest : Option S → List (Token S St) → Option S
  | best, [] => best
  | none, t :: ts => updateBest (some t.total) ts
  | some b, t :: ts => updateBest (some (if b < t.total then t.total else b)) ts

/-- latticedecoder.py:589-601: keeps the first token of each hash; `kept` are the values of `token_map`. -/
def recombineLoop : List (Token S St) → List (Token S St) → List (Token S St) × List (Recomb S St)
  | [], _ => ([], [])
  | t :: ts, kept =>
    match kept.find? (fun k => decide (k.hash = t.hash)) with
    | none =>                                                                           -- 593-595
      let r := recombineLoop ts (kept ++ [t])
      (t :: r.1, r.2)
    | some k =>                                                                         -- 596-600
      let r := recombineLoop ts kept
      (r.1, (t, k.history, k.nnLm) :: r.2)

/-- latticedecoder.py:562-601 `_sorted_recombined_tokens`: the tokens, and the tokens added to `recomb_tokens`.
The sort is stable. -/
def sortedRecombined (tokens : List (Token S St)) : List (Token S St) × List (Recomb S St) :=
  recombineLoop (tokens.insertionSort (fun a b => b.total ≤ a.total)) []

/-- latticedecoder.py:545-548: the number of tokens above the threshold, at least one. -/
def keepTokens (tokens : List (Token S St)) (threshold : S) : Nat → Nat
  | 0 => 0
  | 1 => 1
  | n + 2 =>
    match tokens[n + 1]? with
    | none => n + 2   -- not reachable: the index is valid
    | some t => if t.total ≤ threshold then keepTokens tokens threshold (n + 1) else n + 2

/-- latticedecoder.py:516-523: `time_begin`. -/
def timeBegin (L : Lattice S) (sorted : List Nat) (node : Nat) : Except Err Nat :=
  match L.time node with
  | none => match sorted.findIdx? (fun n => n == node) with                             -- 516-518
    | none => .error .valueError
    | some i => .ok i
  | some time =>                                                                        -- 519-523
    match sorted.findIdx? (fun n => match L.time n with
        | none => false
        | some x => decide (time ≤ x)) with
    | some i => .ok i
    | none => if sorted = [] then .error .nameError else .ok (sorted.length - 1)

/-- latticedecoder.py:525-527: the maximum of the values that are not `None`. -/
def maxBest : List (Option S) → Option S
  | [] => none
  | none :: l => maxBest l
  | some x :: l => match maxBest l with
    | none => some x
    | some y => some (max x y)

/-- latticedecoder.py:505-508: `limit_divider` -/
def limitDivider (D : Decoder S St) (numNodes : Nat) : Except Err Nat :=
  match D.pruneExtraLimit with
  | none => .ok 1
  | some 0 => .error .zeroDivision
  | some (r + 1) => .ok (max 1 (numNodes / (r + 1) + 1))

/-- latticedecoder.py:553-556 -/
def limitTokens (D : Decoder S St) (divider : Nat) (tokens : List (Token S St)) : List (Token S St) :=
  match D.maxTokens with
  | none => tokens
  | some m => tokens.take (max (m / divider) D.absMinMaxTokens)

/-- latticedecoder.py:505-559: the tokens that are left in a node, given `best_logprob` (525) as `best`; and the
tokens that were recombined. -/
def pruneTokens (D : Decoder S St) (divider : Nat) (best : S) (tokens : List (Token S St)) :
    List (Token S St) × List (Recomb S St) :=
  let r := sortedRecombined tokens                                                      -- 510-511
  let beamed := match D.beam with                                                       -- 515
    | none => r.1
    | some beam =>
      let threshold := best - max (beam / (divider : S)) D.absMinBeam                   -- 529-531
      r.1.take (keepTokens r.1 threshold r.1.length)                                    -- 545-549
  (limitTokens D divider beamed, r.2)

/-- The lists `tokens`, `recomb_tokens` and `final_tokens` of `decode`, and the attributes `best_logprob` of the
nodes. -/
structure DecSt (S St : Type) where
  tokens : List (List (Token S St))
  best : List (Option S)
  recomb : List (Recomb S St)
  finals : List (Token S St)

/-- latticedecoder.py:514-527: the best log probability at the same or later time; not used without a beam. -/
def bestLogprob (D : Decoder S St) (L : Lattice S) (sorted : List Nat) (best : List (Option S)) (node : Nat) :
    Except Err S :=
  match D.beam with
  | none => .ok 0
  | some _ =>
    match timeBegin L sorted node with
    | .error e => .error e
    | .ok i =>
      match maxBest ((sorted.drop i).map (fun n => best.getD n none)) with
      | none => .error .valueError   -- max() of an empty sequence
      | some b => .ok b

/-- latticedecoder.py:476-560 `_prune`. -/
def prune (D : Decoder S St) (L : Lattice S) (sorted : List Nat) (node : Nat) (st : DecSt S St) :
    Except Err (DecSt S St) :=
  let nodeTokens := st.tokens.getD node []
  if nodeTokens = [] then .error .assertion                                             -- 501
  else match limitDivider D sorted.length with
    | .error e => .error e
    | .ok divider =>
      match bestLogprob D L sorted st.best node with
      | .error e => .error e
      | .ok best =>
        let r := pruneTokens D divider best nodeTokens
        .ok { st with tokens := st.tokens.set node r.1, recomb := st.recomb ++ r.2 }    -- 559

/-- latticedecoder.py:389-398, one link: propagates the tokens, and prunes if there are too many. -/
def decodeLink (D : Decoder S St) (L : Lattice S) (lmScale wiPenalty : S) (sorted : List Nat)
    (nodeTokens : List (Token S St)) (st : DecSt S St) (l : Nat) : Except Err (DecSt S St) :=
  match L.links[l]? with
  | none => .error .indexError   -- not reachable: links are objects
  | some k =>
    let new := nodeTokens.map (propagateLink D lmScale wiPenalty k)                     -- 390-391
    let best := st.best.modify k.endNode (fun b => updateBest b new)                    -- 469-472
    let tokens := st.tokens.modify k.endNode (fun ts => ts ++ new)                      -- 392
    let st := { st with tokens := tokens, best := best }
    match D.maxTokens with
    | none => .ok st
    | some m =>
      if m * 2 < (tokens.getD k.endNode []).length then prune D L sorted k.endNode st   -- 395-397
      else .ok st

def decodeLinks (D : Decoder S St) (L : Lattice S) (lmScale wiPenalty : S) (sorted : List Nat)
    (nodeTokens : List (Token S St)) : List Nat → DecSt S St → Except Err (DecSt S St)
  | [], st => .ok st
  | l :: ls, st =>
    match decodeLink D L lmScale wiPenalty sorted nodeTokens st l with
    | .error e => .error e
    | .ok st => decodeLinks D L lmScale wiPenalty sorted nodeTokens ls st

/-- latticedecoder.py:379-402, one node. -/
def decodeNode (D : Decoder S St) (L : Lattice S) (lmScale wiPenalty : S) (sorted : List Nat) (node : Nat)
    (st : DecSt S St) : Except Err (DecSt S St) :=
  match prune D L sorted node st with                                                   -- 379
  | .error e => .error e
  | .ok st =>
    let nodeTokens := st.tokens.getD node []                                            -- 382
    if nodeTokens = [] then .error .assertion                                           -- 383
    else
      let st := if (L.nodes.getD node Node.new).final then                              -- 384-388
          { st with finals := st.finals ++ nodeTokens.map (propagateEnd D lmScale wiPenalty) }
        else st
      decodeLinks D L lmScale wiPenalty sorted nodeTokens (L.outLinks node) st

def decodeNodes (D : Decoder S St) (L : Lattice S) (lmScale wiPenalty : S) (sorted : List Nat) :
    List Nat → DecSt S St → Except Err (DecSt S St)
  | [], st => .ok st
  | n :: ns, st =>
    match decodeNode D L lmScale wiPenalty sorted n st with
    | .error e => .error e
    | .ok st => decodeNodes D L lmScale wiPenalty sorted ns st

/-- latticedecoder.py:351-356: the scale given to the decoder, or in the lattice, or one. -/
def decLmScale (D : Decoder S St) (L : Lattice S) : S := (D.lmScale.or L.lmScale).getD 1

/-- latticedecoder.py:358-363 -/
def decWiPenalty (D : Decoder S St) (L : Lattice S) : S := (D.wiPenalty.or L.wiPenalty).getD 0

/-- latticedecoder.py:365-373 -/
def decInit (D : Decoder S St) (L : Lattice S) : DecSt S St :=
  let token := mkToken D (decLmScale D L) (decWiPenalty D L) [.inl D.vocab.sos] D.net.initial 0 0 0
  { tokens := (L.nodes.map (fun _ => [])).modify L.initial (fun ts => ts ++ [token])
    best := (L.nodes.map (fun _ => none)).set L.initial (some token.total)
    recomb := []
    finals := [] }

/-- latticedecoder.py:329-409 `decode`, for a lattice whose nodes do not have `best_logprob` yet. -/
def decode (D : Decoder S St) (L : Lattice S) : Except Err (List (Token S St) × List (Recomb S St)) :=
  match sortedNodes L (L.nodes.length + 1) with                                         -- 375
  | none => .error .runtimeError   -- not reachable, see `C24_terminates`
  | some (.error e) => .error e
  | some (.ok sorted) =>
    match decodeNodes D L (decLmScale D L) (decWiPenalty D L) sorted sorted (decInit D L) with
    | .error e => .error e
    | .ok st =>
      if st.finals = [] then .error .inputError                                         -- 404-405
      else
        let r := sortedRecombined st.finals                                             -- 407-409
        .ok (r.1, st.recomb ++ r.2)

end Model
end TheanoLM
